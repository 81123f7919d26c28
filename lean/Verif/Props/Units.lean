/-
C142: the units of the rings of quadratic integers, found and inverted with the operations of the library.
-/
import Verif.Props.PellPow
import Verif.Props.QIntLaws
import Verif.Props.SmallNorm

namespace NumIrr
namespace QInt

/-- `x`, `x * x`, `x * x * x`, … -/
def unitPowers (cfg : Cfg) (x : QInt) : ℕ → Res QInt
  | 0 => pure x
  | k + 1 => do mul cfg (← unitPowers cfg x k) x

/-- `x` has an inverse in the ring with discriminant `D`. -/
def HasInv (cfg : Cfg) (D : ℤ) (x : QInt) : Prop := ∃ y : QInt, y.InRing cfg D ∧ mul cfg x y = .ok one

private theorem one_val : one.valC = 1 := by simp [valC, one]

private theorem conj_b {x c : QInt} (h : x.conj = .ok c) : c.b = 0 ↔ x.b = 0 := by
  unfold QInt.conj QCoeffs.conj at h
  by_cases hd : x.d = 0
  · rw [if_pos hd] at h
    cases h
    rfl
  · rw [if_neg hd] at h
    split at h
    · cases h
      simp [mk', coeffs]
    · cases h
      simp [mk', coeffs]
    · cases h

private theorem conj_inRing {cfg : Cfg} {D : ℤ} {x c : QInt} (hx : x.InRing cfg D) (h : x.conj = .ok c) : c.InRing cfg D := by
  obtain ⟨c', h', -, hd, -⟩ := qint_conj cfg x hx.ok
  rw [h] at h'
  cases h'
  have hb := conj_b h
  exact ⟨hx.ok.of_d hd fun h => hb.2 h, fun h => by rw [hd]; exact hx.stored (hb.1 h),
    fun h => by rw [hd]; exact hx.discr fun h' => h (hb.2 h')⟩

private theorem mulInt_inRing {cfg : Cfg} {D : ℤ} {x : QInt} (hx : x.InRing cfg D) {k : ℤ} (hk : k ≠ 0) :
    (x.mulInt k).InRing cfg D := by
  unfold QInt.mulInt
  rw [if_neg hk]
  refine ⟨hx.ok.of_d rfl fun h => ?_, fun h => hx.stored ?_, fun h => hx.discr fun h' => h ?_⟩
  · simp [mk', QCoeffs.mulInt, coeffs, h]
  · simpa [mk', QCoeffs.mulInt, coeffs, hk] using h
  · simp [mk', QCoeffs.mulInt, coeffs, h']

/-- **C142** A quadratic integer has an inverse exactly if `norm` is `1` or `-1`. -/
theorem qint_unit_iff (cfg : Cfg) (D : ℤ) (x : QInt) (hx : x.InRing cfg D) :
    HasInv cfg D x ↔ x.norm = .ok 1 ∨ x.norm = .ok (-1) := by
  constructor
  · rintro ⟨y, hy, h⟩
    obtain ⟨n, m, h1, h2, h3⟩ := qint_norm_mul cfg x y one hx.ok hy.ok h
    have h4 : (1 : ℤ) = n * m := Except.ok.inj h3
    rcases Int.eq_one_or_neg_one_of_mul_eq_one h4.symm with rfl | rfl
    · exact .inl h1
    · exact .inr h1
  · intro h
    obtain ⟨n, hn, hnn⟩ : ∃ n : ℤ, x.norm = .ok n ∧ n * n = 1 := by
      rcases h with h | h
      · exact ⟨1, h, rfl⟩
      · exact ⟨-1, h, rfl⟩
    have hn0 : n ≠ 0 := by rintro rfl; simp at hnn
    obtain ⟨c, hc, -⟩ := qint_conj cfg x hx.ok
    obtain ⟨n', hn', hv⟩ := qint_norm cfg x c hx.ok hc
    rw [hn] at hn'
    cases hn'
    have iy := mulInt_inRing (conj_inRing hx hc) hn0
    obtain ⟨z, hz, iz, vz⟩ := (qint_ring_ops cfg D x _ hx iy).2.2.1
    refine ⟨_, iy, ?_⟩
    rw [hz, inRing_inj iz (qint_ring_ops cfg D x x hx hx).2.2.2.2.2 ?_]
    rw [vz, (qint_int_ops c n).2.2.2, one_val, ← mul_assoc, ← hv]
    exact_mod_cast hnn

/-- **C142** Then `1 / x` is the inverse, and it is the conjugate up to the sign. -/
theorem qint_unit_inverse (cfg : Cfg) (D : ℤ) (x : QInt) (hx : x.InRing cfg D) (h : HasInv cfg D x) :
    ∃ y c n, div cfg one x = .ok y ∧ y.InRing cfg D ∧ mul cfg x y = .ok one ∧ mul cfg y x = .ok one ∧
      x.conj = .ok c ∧ x.norm = .ok n ∧ y = c.mulInt n := by
  obtain ⟨y, hy, e⟩ := h
  obtain ⟨s, e1, e2⟩ := (qint_ring_laws cfg D x y x hx hy hx).2.1
  rw [e] at e1
  cases e1
  have vxy : x.valC * y.valC = 1 := by rw [← qint_mul_value cfg x y one hx.ok hy.ok e, one_val]
  have hx0 : x.valC ≠ 0 := left_ne_zero_of_mul_eq_one vxy
  obtain ⟨z, e3, e4⟩ := qint_mul_div cfg D y x hy hx hx0
  rw [e2] at e3
  cases e3
  obtain ⟨c, hc, -⟩ := qint_conj cfg x hx.ok
  obtain ⟨n, hn, hv⟩ := qint_norm cfg x c hx.ok hc
  have hnn : n * n = 1 := by
    rcases (qint_unit_iff cfg D x hx).1 ⟨y, hy, e⟩ with h | h
    · rw [hn] at h; cases h; rfl
    · rw [hn] at h; cases h; rfl
  have hn0 : n ≠ 0 := by rintro rfl; simp at hnn
  refine ⟨y, c, n, e4, hy, e, e2, hc, hn, inRing_inj hy (mulInt_inRing (conj_inRing hx hc) hn0) ?_⟩
  rw [(qint_int_ops c n).2.2.2]
  have hnn' : (n : ℂ) * n = 1 := by exact_mod_cast hnn
  refine mul_left_cancel₀ hx0 ?_
  rw [vxy, ← mul_assoc, ← hv, hnn']

example : HasInv ⟨false, true⟩ 2 ⟨1, 1, 2⟩ := ⟨⟨-1, 1, 2⟩, ⟨⟨by decide, by decide, fun _ => by decide +kernel, by decide⟩,
  by simp [Stored], by decide⟩, by decide +kernel⟩
example : div ⟨false, true⟩ one ⟨1, 1, 2⟩ = .ok ⟨-1, 1, 2⟩ ∧ div ⟨false, true⟩ one ⟨0, 1, 5⟩ = .ok ⟨-1, 1, 5⟩ := by
  decide +kernel

/-- **C142** The units of imaginary rings are `±1`, in the ring of `√-1` also `±√-1`, and in the ring of
`ω = (1 + √-3)/2` also `±ω` and `±(1 - ω)`. -/
theorem qint_units_imaginary (cfg : Cfg) (D : ℤ) (hD : D < 0) (x : QInt) (hx : x.InRing cfg D) :
    HasInv cfg D x ↔ x = ⟨1, 0, 0⟩ ∨ x = ⟨-1, 0, 0⟩ ∨ (D = -1 ∧ (x = ⟨0, 1, -1⟩ ∨ x = ⟨0, -1, -1⟩)) ∨
      (D = -3 ∧ (x = ⟨0, 1, -3⟩ ∨ x = ⟨0, -1, -3⟩ ∨ x = ⟨1, -1, -3⟩ ∨ x = ⟨-1, 1, -3⟩)) := by
  rw [qint_unit_iff cfg D x hx]
  constructor
  · intro h
    by_cases hb : x.b = 0
    · have hd := hx.stored hb
      obtain ⟨a, b, d⟩ := x
      simp only at hb hd
      subst hb hd
      have hn : QInt.norm ⟨a, 0, 0⟩ = .ok (a * a) := rfl
      rw [hn, Except.ok.injEq, Except.ok.injEq] at h
      rcases h with h | h
      · rcases Int.eq_one_or_neg_one_of_mul_eq_one h with rfl | rfl
        · exact .inl rfl
        · exact .inr (.inl rfl)
      · nlinarith [mul_self_nonneg a]
    · have hd := hx.discr hb
      obtain ⟨a, b, d⟩ := x
      simp only at hb hd
      subst hd
      have h4 := hx.ok.mod4 hD.ne
      simp only at h4
      have hb2 : 1 ≤ b * b := by
        have := mul_self_pos.2 hb
        omega
      by_cases h1 : d % 4 = 1
      · obtain ⟨m, rfl⟩ : ∃ m, d = 1 - 4 * m := ⟨(1 - d) / 4, by omega⟩
        have hn : QInt.norm ⟨a, b, 1 - 4 * m⟩ = .ok (a * a + a * b + b * b * m) := by
          unfold QInt.norm QCoeffs.norm
          have e1 : mod4d2 (1 - 4 * m) = 0 := by
            rw [mod4d2_eq, if_neg (by omega), if_pos h1]
          have e2 : (1 - (1 - 4 * m)).tdiv 4 = m := by
            rw [show 1 - (1 - 4 * m) = 4 * m by ring]
            exact Int.mul_tdiv_cancel_left m (by norm_num)
          rw [if_neg hD.ne, e1]
          simp only [coeffs, e2]
        rw [hn, Except.ok.injEq, Except.ok.injEq] at h
        have hm : 1 ≤ m := by omega
        have key : 4 * (a * a + a * b + b * b * m) = (2 * a + b) * (2 * a + b) + (4 * m - 1) * (b * b) := by ring
        have hs := mul_self_nonneg (2 * a + b)
        have hm1 : m = 1 := by
          by_contra hne
          have : 7 * 1 ≤ (4 * m - 1) * (b * b) := mul_le_mul (by omega) hb2 (by norm_num) (by omega)
          rcases h with h | h <;> rw [h] at key <;> omega
        subst hm1
        right; right; right
        refine ⟨rfl, ?_⟩
        have hbb : b * b = 1 := by
          rcases h with h | h <;> rw [h] at key <;> omega
        have h' : a * (a + b) = 0 := by
          rcases h with h | h
          · linear_combination h - hbb
          · rw [h] at key; omega
        rcases Int.eq_one_or_neg_one_of_mul_eq_one hbb with rfl | rfl
        · rcases mul_eq_zero.1 h' with h0 | h0
          · subst h0; exact .inl rfl
          · obtain rfl : a = -1 := by omega
            exact .inr (.inr (.inr rfl))
        · rcases mul_eq_zero.1 h' with h0 | h0
          · subst h0; exact .inr (.inl rfl)
          · obtain rfl : a = 1 := by omega
            exact .inr (.inr (.inl rfl))
      · have hn : QInt.norm ⟨a, b, d⟩ = .ok (a * a - b * b * d) := by
          unfold QInt.norm QCoeffs.norm
          have e1 : mod4d2 d = 1 := by
            rw [mod4d2_eq, if_neg h4, if_neg h1]
          rw [if_neg hD.ne, e1]
          rfl
        rw [hn, Except.ok.injEq, Except.ok.injEq] at h
        have ha := mul_self_nonneg a
        have hd1 : d = -1 := by
          by_contra hne
          have : 1 * 2 ≤ b * b * -d := mul_le_mul hb2 (by omega) (by norm_num) (by omega)
          rcases h with h | h <;> linarith
        subst hd1
        have hbb : b * b = 1 := by rcases h with h | h <;> linarith
        have haa : a * a = 0 := by rcases h with h | h <;> linarith
        have ha0 : a = 0 := mul_self_eq_zero.1 haa
        subst ha0
        right; right; left
        rcases Int.eq_one_or_neg_one_of_mul_eq_one hbb with rfl | rfl
        · exact ⟨rfl, .inl rfl⟩
        · exact ⟨rfl, .inr rfl⟩
  · rintro (rfl | rfl | ⟨rfl, rfl | rfl⟩ | ⟨rfl, rfl | rfl | rfl | rfl⟩) <;> exact .inl (by decide +kernel)

private theorem norm_real {N : ℤ} (h0 : N ≠ 0) (h4 : N % 4 = 2 ∨ N % 4 = 3) (a b : ℤ) :
    QInt.norm ⟨a, b, N⟩ = .ok (a ^ 2 - N * b ^ 2) := by
  unfold QInt.norm QCoeffs.norm
  rw [if_neg h0, mod4d2_eq, if_neg (show ¬ N % 4 = 0 by omega), if_neg (show ¬ N % 4 = 1 by omega)]
  simp only [coeffs]
  congr 1
  ring

private theorem conj_real {N : ℤ} (h0 : N ≠ 0) (h4 : N % 4 = 2 ∨ N % 4 = 3) (a b : ℤ) :
    QInt.conj ⟨a, b, N⟩ = .ok ⟨a, -b, N⟩ := by
  unfold QInt.conj QCoeffs.conj
  rw [if_neg h0, mod4d2_eq, if_neg (show ¬ N % 4 = 0 by omega), if_neg (show ¬ N % 4 = 1 by omega)]
  rfl

private theorem val_real {N : ℤ} (h4 : N % 4 = 2 ∨ N % 4 = 3) (a b : ℤ) :
    QInt.valC ⟨a, b, N⟩ = Surd.valC ⟨a, b, 1, N⟩ := by
  unfold QInt.valC omegaC Surd.valC quadC
  rw [if_neg (by simp only; omega)]
  simp

/-- **C142** The units of the ring of `√N`, for `N` that leaves `2` or `3` when divided by `4`: let `p/q` be the last
convergent of `√N` before the period repeats. The units are `1`, `-1`, and the powers of `p + q√N` calculated with
`QuadraticInt`, with either sign, and their conjugates. -/
theorem qint_units_real (cfg : Cfg) (c : CF) (h : c.Wf) (hp : c.p ≠ []) (h1 : c.ShortestHead) (h2 : c.ShortestPeriod) (N : ℕ)
    (hv : c.HasVal (√(N : ℝ))) (h4 : (N : ℤ) % 4 = 2 ∨ (N : ℤ) % 4 = 3) :
    ∃ x : ℚ, itemAt (CF.ConvIter.next .big) (c.p.length - 1) c.convergents = .ok (some x) ∧
      (∀ k, ∃ w, unitPowers cfg ⟨x.num, x.den, N⟩ k = .ok w) ∧
      ∀ u : QInt, u.InRing cfg N → (HasInv cfg N u ↔ u = one ∨ u = one.neg ∨
        ∃ k w, unitPowers cfg ⟨x.num, x.den, N⟩ k = .ok w ∧ (u = w ∨ u = w.neg ∨ w.conj = .ok u ∨ w.conj = .ok u.neg)) := by
  obtain ⟨g1, g2⟩ := CF.cf_pell c h hp h1 h2 N hv
  obtain ⟨x, ex, hpow⟩ := CF.cf_pell_powers cfg c h hp h1 h2 N hv
  have hN0 : (N : ℤ) ≠ 0 := by omega
  have hl : 1 ≤ c.p.length := List.length_pos_iff.2 hp
  have hirr : Irrational √(N : ℝ) := by
    have := (CF.coeff_of_val h hp hv).2.1
    rwa [abs_of_nonneg (Real.sqrt_nonneg _)] at this
  have hsq : ¬ IsSquare (N : ℤ) := by
    rintro ⟨m, hm⟩
    apply hirr
    refine ⟨(|m| : ℤ), ?_⟩
    have : (N : ℝ) = ((|m| : ℤ) : ℝ) ^ 2 := by
      have : (N : ℝ) = (m : ℝ) * m := by exact_mod_cast hm
      rw [this]; push_cast; rw [sq_abs, pow_two]
    rw [this, Real.sqrt_sq (by exact_mod_cast abs_nonneg m)]
    simp
  -- the stored numbers
  have inR : ∀ a b : ℤ, b ≠ 0 → QInt.InRing cfg N ⟨a, b, N⟩ := fun a b hb =>
    ⟨⟨fun h => absurd h hN0, fun _ => by simp only; omega, fun _ => hsq, fun _ => by simp only; omega⟩,
      fun h => absurd h hb, fun _ => rfl⟩
  have sOk : ∀ a b : ℤ, b ≠ 0 → Surd.Ok cfg ⟨a, b, 1, N⟩ := fun a b hb =>
    ⟨⟨one_pos, fun d _ _ h => isUnit_of_dvd_one h, ⟨fun h => absurd h hb, fun h => absurd h hN0⟩, fun _ => hsq⟩,
      fun _ => by simp only; omega⟩
  choose R r1 r2 using hpow
  have den0 : ∀ q : ℚ, (q.den : ℤ) ≠ 0 := fun q => by exact_mod_cast q.den_nz
  have hpq : ∀ k, unitPowers cfg ⟨x.num, x.den, N⟩ k = .ok ⟨(R k).num, (R k).den, N⟩ := by
    intro k
    induction k with
    | zero =>
      have h0 : Surd.powers cfg ⟨x.num, x.den, 1, N⟩ 0 = .ok ⟨x.num, x.den, 1, N⟩ := rfl
      have := (r2 0).symm.trans h0
      simp only [Except.ok.injEq, Surd.mk.injEq] at this
      show (Except.ok _ : Res QInt) = _
      rw [this.1, this.2.1]
    | succ k ih =>
      have hs := r2 (k + 1)
      unfold Surd.powers at hs
      rw [r2 k, Surd.ok_bind] at hs
      have hval := (surd_mul_value_partial cfg _ _ _ (sOk _ _ (den0 _)) (sOk _ _ (den0 _))
        (by simp only; omega) hs).1
      obtain ⟨z, ez, iz, vz⟩ := (qint_ring_ops cfg N _ _ (inR (R k).num _ (den0 (R k))) (inR x.num _ (den0 x))).2.2.1
      show (do mul cfg (← unitPowers cfg ⟨x.num, x.den, N⟩ k) ⟨x.num, x.den, N⟩) = _
      rw [ih]
      show mul cfg _ _ = _
      rw [ez, inRing_inj iz (inR (R (k + 1)).num _ (den0 (R (k + 1)))) ?_]
      rw [vz, val_real h4, val_real h4, val_real h4, hval]
  have hnorm : ∀ k, (R k).num ^ 2 - N * ((R k).den : ℤ) ^ 2 = 1 ∨ (R k).num ^ 2 - N * ((R k).den : ℤ) ^ 2 = -1 := by
    intro k
    obtain ⟨r, e1, -, e2, -⟩ := g1 ((k + 1) * c.p.length - 1)
    rw [r1 k] at e1
    cases e1
    have : 1 ≤ (k + 1) * c.p.length := Nat.mul_pos (by omega) hl
    exact (abs_eq (by norm_num)).1 (e2.2 (by rw [Nat.sub_add_cancel this]; exact dvd_mul_left _ _))
  refine ⟨x, ex, fun k => ⟨_, hpq k⟩, fun u hu => ?_⟩
  rw [qint_unit_iff cfg N u hu]
  constructor
  · intro hn
    by_cases hb : u.b = 0
    · have hd := hu.stored hb
      obtain ⟨a, b, d⟩ := u
      simp only at hb hd
      subst hb hd
      have hn' : QInt.norm ⟨a, 0, 0⟩ = .ok (a * a) := rfl
      rw [hn', Except.ok.injEq, Except.ok.injEq] at hn
      rcases hn with hn | hn
      · rcases Int.eq_one_or_neg_one_of_mul_eq_one hn with rfl | rfl
        · exact .inl rfl
        · exact .inr (.inl rfl)
      · nlinarith [mul_self_nonneg a]
    · have hd := hu.discr hb
      obtain ⟨a, b, d⟩ := u
      simp only at hb hd
      subst hd
      rw [norm_real hN0 h4, Except.ok.injEq, Except.ok.injEq] at hn
      have hb1 : 1 ≤ |b| := Int.one_le_abs hb
      have ha0 : a ≠ 0 := by
        rintro rfl
        have : 1 ≤ b ^ 2 := by rw [← sq_abs]; nlinarith
        have hN2 : (2 : ℤ) ≤ N := by omega
        have : 2 * 1 ≤ N * b ^ 2 := mul_le_mul hN2 this (by norm_num) (by omega)
        rcases hn with hn | hn <;> linarith
      have ha1 : 1 ≤ |a| := Int.one_le_abs ha0
      obtain ⟨n, ⟨m, hm⟩, hn2⟩ := g2 |a| |b| ha1 hb1 (by rw [sq_abs, sq_abs]; exact (abs_eq (by norm_num)).2 hn)
      have hm0 : m ≠ 0 := by rintro rfl; omega
      have hidx : (m - 1 + 1) * c.p.length - 1 = n := by
        rw [Nat.sub_add_cancel (by omega), mul_comm, ← hm]; omega
      have hR := r1 (m - 1)
      rw [hidx, hn2] at hR
      have hR' : R (m - 1) = ((|a| : ℤ) / (|b| : ℤ) : ℚ) := (Option.some.inj (Except.ok.inj hR)).symm
      have hcop : IsCoprime |a| |b| := by
        have hn' : |a| ^ 2 - N * |b| ^ 2 = 1 ∨ |a| ^ 2 - N * |b| ^ 2 = -1 := by rw [sq_abs, sq_abs]; exact hn
        rcases hn' with s3 | s3
        · exact ⟨|a|, -(N * |b|), by linear_combination s3⟩
        · exact ⟨-|a|, N * |b|, by linear_combination -s3⟩
      have hcop' := Int.isCoprime_iff_gcd_eq_one.1 hcop
      have e1 : (R (m - 1)).num = |a| := by rw [hR']; exact Rat.num_div_eq_of_coprime (by omega) hcop'
      have e2 : ((R (m - 1)).den : ℤ) = |b| := by rw [hR']; exact Rat.den_div_eq_of_coprime (by omega) hcop'
      right; right
      refine ⟨m - 1, _, hpq (m - 1), ?_⟩
      rw [e1, e2, conj_real hN0 h4]
      rcases abs_choice a with ea | ea <;> rcases abs_choice b with eb | eb <;> rw [ea, eb]
      · exact .inl rfl
      · exact .inr (.inr (.inl (by rw [neg_neg])))
      · exact .inr (.inr (.inr rfl))
      · exact .inr (.inl (by simp [QInt.neg]))
  · rintro (rfl | rfl | ⟨k, w, hw, hc⟩)
    · exact .inl rfl
    · exact .inl rfl
    · rw [hpq k] at hw
      cases hw
      rw [conj_real hN0 h4] at hc
      have hk := hnorm k
      rcases hc with rfl | rfl | hc | hc
      · rw [norm_real hN0 h4, Except.ok.injEq, Except.ok.injEq]; exact hk
      · unfold QInt.neg
        rw [norm_real hN0 h4, Except.ok.injEq, Except.ok.injEq, neg_sq, neg_sq]; exact hk
      · cases hc
        rw [norm_real hN0 h4, Except.ok.injEq, Except.ok.injEq, neg_sq]; exact hk
      · obtain ⟨a, b, d⟩ := u
        simp only [QInt.neg, Except.ok.injEq, QInt.mk.injEq] at hc
        obtain ⟨c1, c2, rfl⟩ := hc
        rw [norm_real hN0 h4, Except.ok.injEq, Except.ok.injEq, ← neg_sq a, ← neg_sq b, ← c1, ← c2, neg_sq]; exact hk

example : itemAt (CF.ConvIter.next .big) 3 (CF.convergents ⟨[2], [1, 1, 1, 4], false⟩) = .ok (some (8/3)) ∧
    unitPowers ⟨false, true⟩ ⟨8, 3, 7⟩ 1 = .ok ⟨127, 48, 7⟩ ∧ div ⟨false, true⟩ one ⟨127, 48, 7⟩ = .ok ⟨127, -48, 7⟩ := by
  decide +kernel


/-- **C142** For `N > 16` that leaves `1` the units `a + bω`, `ω = (1 + √N)/2`, are found among the convergents of `√N` too:
one of them is `|2a + b| / |b|`. -/
theorem qint_units_half (cfg : Cfg) (c : CF) (h : c.Wf) (hp : c.p ≠ []) (N : ℕ) (hv : c.HasVal (√(N : ℝ)))
    (h4 : (N : ℤ) % 4 = 1) (hN : 16 < N) (u : QInt) (hu : u.InRing cfg N) (hi : HasInv cfg N u) (hb : u.b ≠ 0) :
    ∃ n, itemAt (CF.ConvIter.next .big) n c.convergents = .ok (some ((|2 * u.a + u.b| : ℤ) / (|u.b| : ℤ) : ℚ)) := by
  have hd := hu.discr hb
  have hn := (qint_unit_iff cfg N u hu).1 hi
  obtain ⟨a, b, d⟩ := u
  simp only at hb hd ⊢
  subst hd
  obtain ⟨m, hm⟩ : ∃ m : ℤ, (N : ℤ) = 1 + 4 * m := ⟨((N : ℤ) - 1) / 4, by omega⟩
  have hnorm : QInt.norm ⟨a, b, N⟩ = .ok (a * a + a * b - b * b * m) := by
    unfold QInt.norm QCoeffs.norm
    have e2 : (1 - (N : ℤ)).tdiv 4 = -m := by
      rw [show 1 - (N : ℤ) = 4 * -m by rw [hm]; ring]
      exact Int.mul_tdiv_cancel_left _ (by norm_num)
    rw [if_neg (show ¬ (N : ℤ) = 0 by omega), mod4d2_eq, if_neg (show ¬ (N : ℤ) % 4 = 0 by omega), if_pos h4]
    simp only [coeffs, e2]
    congr 1
    ring
  rw [hnorm, Except.ok.injEq, Except.ok.injEq] at hn
  have key : (2 * a + b) ^ 2 - N * b ^ 2 = 4 * (a * a + a * b - b * b * m) := by rw [hm]; ring
  have hsq : ((2 * a + b) ^ 2 - N * b ^ 2) ^ 2 = 16 := by
    rw [key]
    rcases hn with hn | hn <;> rw [hn] <;> norm_num
  have hb1 : 1 ≤ |b| := Int.one_le_abs hb
  have ha0 : 2 * a + b ≠ 0 := by
    intro h0
    have hb2 : 1 ≤ b ^ 2 := by rw [← sq_abs]; nlinarith
    have hN' : (17 : ℤ) ≤ N := by omega
    have : 17 * 1 ≤ (N : ℤ) * b ^ 2 := mul_le_mul hN' hb2 (by norm_num) (by omega)
    rw [h0] at key
    rcases hn with hn | hn <;> rw [hn] at key <;> linarith
  exact CF.cf_small_norm c h hp N hv _ _ (Int.one_le_abs ha0) hb1 (by rw [sq_abs, sq_abs, hsq]; exact_mod_cast hN)

example : QInt.norm ⟨2, 1, 29⟩ = .ok (-1) ∧ itemAt (CF.ConvIter.next .big) 0 (CF.convergents ⟨[5], [2, 1, 1, 2, 10], false⟩) =
    .ok (some 5) ∧ |2 * 2 + (1 : ℤ)| = 5 := by decide +kernel

end QInt

/-- **C142** The units of the Gaussian integers are `1`, `-1`, `i` and `-i`, and `1 / x` is the inverse. -/
theorem gint_units (x : GInt) :
    ((∃ y, x.mul y = .ok ⟨1, 0⟩) ↔ x = ⟨1, 0⟩ ∨ x = ⟨-1, 0⟩ ∨ x = ⟨0, 1⟩ ∨ x = ⟨0, -1⟩) ∧
    ∀ y, x.mul y = .ok ⟨1, 0⟩ → GInt.div ⟨1, 0⟩ x = .ok y ∧ y = x.conj := by
  have v1 : GInt.valC ⟨1, 0⟩ = 1 := by simp [GInt.valC]
  have key : ∀ y, x.mul y = .ok ⟨1, 0⟩ → x.norm = 1 ∧ x.valC * y.valC = 1 := fun y h => by
    obtain ⟨m, h1, h2⟩ := (gint_ring_ops x y).2.2.1
    rw [h] at h1
    cases h1
    rw [v1] at h2
    refine ⟨?_, h2.symm⟩
    have a1 := (gint_ring_ops x x).2.2.2.2
    have a2 := (gint_ring_ops y y).2.2.2.2
    rw [(gint_ring_ops x x).2.2.2.1] at a1
    rw [(gint_ring_ops y y).2.2.2.1] at a2
    have : (x.norm : ℂ) * y.norm = 1 := by
      rw [a1, a2, mul_mul_mul_comm, ← map_mul, ← h2]
      simp
    have h3 : x.norm * y.norm = 1 := by exact_mod_cast this
    have h0 : 0 ≤ x.norm := by
      unfold GInt.norm
      nlinarith [mul_self_nonneg x.re, mul_self_nonneg x.im]
    rcases Int.eq_one_or_neg_one_of_mul_eq_one h3 with h | h
    · exact h
    · omega
  refine ⟨⟨?_, ?_⟩, ?_⟩
  · rintro ⟨y, h⟩
    obtain ⟨h1, -⟩ := key y h
    obtain ⟨a, b⟩ := x
    unfold GInt.norm at h1
    simp only at h1
    have ha : -1 ≤ a ∧ a ≤ 1 := ⟨by nlinarith [mul_self_nonneg b], by nlinarith [mul_self_nonneg b]⟩
    have hb : -1 ≤ b ∧ b ≤ 1 := ⟨by nlinarith [mul_self_nonneg a], by nlinarith [mul_self_nonneg a]⟩
    obtain ⟨ha1, ha2⟩ := ha
    obtain ⟨hb1, hb2⟩ := hb
    interval_cases a <;> interval_cases b <;> simp_all
  · rintro (rfl | rfl | rfl | rfl)
    · exact ⟨⟨1, 0⟩, by decide +kernel⟩
    · exact ⟨⟨-1, 0⟩, by decide +kernel⟩
    · exact ⟨⟨0, -1⟩, by decide +kernel⟩
    · exact ⟨⟨0, 1⟩, by decide +kernel⟩
  · intro y h
    obtain ⟨h1, h2⟩ := key y h
    have hx0 : x.valC ≠ 0 := left_ne_zero_of_mul_eq_one h2
    constructor
    · obtain ⟨z, e1, e2, -⟩ := gint_mul_div y x hx0
      rw [← (gint_ring_laws x y x).2.1, h] at e1
      cases e1
      exact e2
    · refine gint_valC_inj _ _ (mul_left_cancel₀ hx0 ?_)
      rw [h2, ← (gint_ring_ops x x).2.2.2.2, h1]
      simp

example : GInt.div ⟨1, 0⟩ ⟨0, 1⟩ = .ok ⟨0, -1⟩ ∧ GInt.mul ⟨0, 1⟩ ⟨0, -1⟩ = .ok ⟨1, 0⟩ := by decide +kernel

end NumIrr
