/-
C92: the laws of arithmetic for quadratic and Gaussian integers.
-/
import Verif.Props.QIntEq
import Verif.Spec.QIntRing

namespace NumIrr
open QInt

/-! ### How results are stored -/

private theorem fromCoeffs_form {cfg : Cfg} {c : QCoeffs} {d : ℤ} {t : QInt} (e : fromCoeffs cfg c d = .ok t)
    (hd : d % 4 ≠ 0) (hs : ¬ IsSquare d) (hr : cfg.complex = false → 0 ≤ d) :
    t.Ok cfg ∧ t.Stored ∧ (t.b ≠ 0 → t.d = d) := by
  refine ⟨fromCoeffs_ok e, ?_⟩
  rw [fromCoeffs_eq hr hd hs] at e
  have e := Except.ok.inj e
  subst e
  unfold QInt.Stored
  split
  · exact ⟨fun _ => rfl, fun h => absurd rfl h⟩
  · next hb => exact ⟨fun h => absurd h hb, fun _ => rfl⟩

/-- a result of one of the ring operations is well formed, stored as its operands are, over one of their
discriminants -/
def Fine (cfg : Cfg) (x y z : QInt) : Prop :=
  z.Ok cfg ∧ (x.Stored → y.Stored → z.Stored) ∧ (z.b ≠ 0 → (x.b ≠ 0 ∧ z.d = x.d) ∨ (y.b ≠ 0 ∧ z.d = y.d))

private theorem fine_of_matched {cfg : Cfg} {x y z : QInt} (hxb : x.b ≠ 0) (hyb : y.b ≠ 0) {p : QInt × QInt}
    (M : Matched cfg x y p) {c : QCoeffs} (e : fromCoeffs cfg c p.2.d = .ok z) : Fine cfg x y z := by
  have h0 : p.2.d ≠ 0 := fun e => M.b2 (M.ok2.rational e)
  obtain ⟨h1, h2, h3⟩ := fromCoeffs_form e (M.ok2.mod4 h0) (M.ok2.irrational h0) M.ok2.real
  refine ⟨h1, fun _ _ => h2, fun h => ?_⟩
  rw [h3 h, ← M.d12]
  rcases M.dxy with e | e
  · exact .inl ⟨hxb, e⟩
  · exact .inr ⟨hyb, e⟩

private theorem matched {cfg : Cfg} {x y : QInt} (hx : x.Ok cfg) (hy : y.Ok cfg) {p : QInt × QInt}
    (hxb : x.b ≠ 0) (hyb : y.b ≠ 0) (hp : reduceBinOpUnwrap cfg x y = .ok p) : Matched cfg x y p := by
  obtain ⟨c1, c2⟩ := reduceBinOpUnwrap_spec hx hy hxb hyb
  by_cases h : x.Compatible y
  · obtain ⟨p', hp', M⟩ := c1 h; rw [hp] at hp'; cases hp'; exact M
  · rw [c2 h] at hp; cases hp

theorem add_fine {cfg : Cfg} {x y z : QInt} (hx : x.Ok cfg) (hy : y.Ok cfg) (h : QInt.add cfg x y = .ok z) :
    Fine cfg x y z := by
  unfold QInt.add at h
  split at h
  · cases h
    exact ⟨hx.of_d rfl id, fun h _ => h, fun h => .inl ⟨h, rfl⟩⟩
  · next hyb =>
    split at h
    · cases h
      exact ⟨hy.of_d rfl id, fun _ h => h, fun h => .inr ⟨h, rfl⟩⟩
    · next hxb =>
      rw [isRational_iff] at hxb hyb
      obtain ⟨p, hp, h⟩ := bind_ok h
      exact fine_of_matched hxb hyb (matched hx hy hxb hyb hp) h

theorem sub_fine {cfg : Cfg} {x y z : QInt} (hx : x.Ok cfg) (hy : y.Ok cfg) (h : QInt.sub cfg x y = .ok z) :
    Fine cfg x y z := by
  unfold QInt.sub at h
  split at h
  · cases h
    exact ⟨hx.of_d rfl id, fun h _ => h, fun h => .inl ⟨h, rfl⟩⟩
  · next hyb =>
    split at h
    · cases h
      rw [isRational_iff] at hyb
      refine ⟨hy.of_d rfl fun h => ?_, fun _ h => ?_, fun h => .inr ⟨hyb, rfl⟩⟩
      · simp [QInt.neg, QInt.subInt, mk', coeffs, QCoeffs.subInt, h]
      · intro h0
        exact h (by simpa [QInt.neg, QInt.subInt, mk', coeffs, QCoeffs.subInt] using h0)
    · next hxb =>
      rw [isRational_iff] at hxb hyb
      obtain ⟨p, hp, h⟩ := bind_ok h
      exact fine_of_matched hxb hyb (matched hx hy hxb hyb hp) h

theorem mulInt_fine {cfg : Cfg} {x : QInt} (hx : x.Ok cfg) (k : ℤ) :
    (x.mulInt k).Ok cfg ∧ (x.Stored → (x.mulInt k).Stored) ∧
      ((x.mulInt k).b ≠ 0 → x.b ≠ 0 ∧ (x.mulInt k).d = x.d) := by
  unfold QInt.mulInt
  split
  · exact ⟨zero_ok, fun _ _ => rfl, fun h => absurd rfl h⟩
  · next hk =>
    refine ⟨hx.of_d rfl fun h => ?_, fun h h0 => h ?_, fun h => ⟨fun h0 => h ?_, rfl⟩⟩
    · simp [mk', coeffs, QCoeffs.mulInt, h]
    · have : x.b * k = 0 := h0
      rcases mul_eq_zero.1 this with h | h
      · exact h
      · exact absurd h hk
    · simp [mk', coeffs, QCoeffs.mulInt, h0]

theorem mul_fine {cfg : Cfg} {x y z : QInt} (hx : x.Ok cfg) (hy : y.Ok cfg) (h : QInt.mul cfg x y = .ok z) :
    Fine cfg x y z := by
  unfold QInt.mul at h
  split at h
  · cases h
    obtain ⟨h1, h2, h3⟩ := mulInt_fine hx y.a
    exact ⟨h1, fun h _ => h2 h, fun h => .inl (h3 h)⟩
  · next hyb =>
    split at h
    · cases h
      obtain ⟨h1, h2, h3⟩ := mulInt_fine hy x.a
      exact ⟨h1, fun _ h => h2 h, fun h => .inr (h3 h)⟩
    · next hxb =>
      rw [isRational_iff] at hxb hyb
      obtain ⟨p, hp, h⟩ := bind_ok h
      obtain ⟨c, -, h⟩ := bind_ok h
      exact fine_of_matched hxb hyb (matched hx hy hxb hyb hp) h

/-! ### The laws, for numbers stored in the documented way -/

private theorem done {cfg : Cfg} {s t : QInt} (hs : s.Ok cfg) (ht : t.Ok cfg) (h1 : s.Stored) (h2 : t.Stored)
    (e : s.valC = t.valC) : s.valC = t.valC ∧ QInt.eq s t = .ok true :=
  ⟨e, qint_eq_complete_partial cfg s t hs ht h1 h2 e⟩

/-- C92, restricted: the laws of a commutative ring hold up to `==` whenever both sides return, for operands whose
rational numbers are stored with discriminant zero, as the constructors do it.  (Missing from the full claim: rational
numbers with another discriminant, which division produces, and panics on one side only; see
`qint_laws_refuted`.) -/
theorem qint_laws_partial (cfg : Cfg) (x y z : QInt) (hx : x.Ok cfg) (hy : y.Ok cfg) (hz : z.Ok cfg)
    (sx : x.Stored) (sy : y.Stored) (sz : z.Stored) :
    (∀ s t, QInt.add cfg x y = .ok s → QInt.add cfg y x = .ok t → s.valC = t.valC ∧ QInt.eq s t = .ok true) ∧
    (∀ s t, QInt.mul cfg x y = .ok s → QInt.mul cfg y x = .ok t → s.valC = t.valC ∧ QInt.eq s t = .ok true) ∧
    (∀ u v s t, QInt.add cfg x y = .ok u → QInt.add cfg u z = .ok s → QInt.add cfg y z = .ok v →
      QInt.add cfg x v = .ok t → s.valC = t.valC ∧ QInt.eq s t = .ok true) ∧
    (∀ u v s t, QInt.mul cfg x y = .ok u → QInt.mul cfg u z = .ok s → QInt.mul cfg y z = .ok v →
      QInt.mul cfg x v = .ok t → s.valC = t.valC ∧ QInt.eq s t = .ok true) ∧
    (∀ u v w s t, QInt.add cfg y z = .ok u → QInt.mul cfg x u = .ok s → QInt.mul cfg x y = .ok v →
      QInt.mul cfg x z = .ok w → QInt.add cfg v w = .ok t → s.valC = t.valC ∧ QInt.eq s t = .ok true) := by
  refine ⟨fun s t h1 h2 => ?_, fun s t h1 h2 => ?_, fun u v s t h1 h2 h3 h4 => ?_, fun u v s t h1 h2 h3 h4 => ?_,
    fun u v w s t h1 h2 h3 h4 h5 => ?_⟩
  · obtain ⟨a1, b1, -⟩ := add_fine hx hy h1
    obtain ⟨a2, b2, -⟩ := add_fine hy hx h2
    refine done a1 a2 (b1 sx sy) (b2 sy sx) ?_
    rw [qint_add_value cfg _ _ _ hx hy h1, qint_add_value cfg _ _ _ hy hx h2, add_comm]
  · obtain ⟨a1, b1, -⟩ := mul_fine hx hy h1
    obtain ⟨a2, b2, -⟩ := mul_fine hy hx h2
    refine done a1 a2 (b1 sx sy) (b2 sy sx) ?_
    rw [qint_mul_value cfg _ _ _ hx hy h1, qint_mul_value cfg _ _ _ hy hx h2, mul_comm]
  · obtain ⟨a1, b1, -⟩ := add_fine hx hy h1
    obtain ⟨a2, b2, -⟩ := add_fine a1 hz h2
    obtain ⟨a3, b3, -⟩ := add_fine hy hz h3
    obtain ⟨a4, b4, -⟩ := add_fine hx a3 h4
    refine done a2 a4 (b2 (b1 sx sy) sz) (b4 sx (b3 sy sz)) ?_
    rw [qint_add_value cfg _ _ _ a1 hz h2, qint_add_value cfg _ _ _ hx hy h1, qint_add_value cfg _ _ _ hx a3 h4,
      qint_add_value cfg _ _ _ hy hz h3, add_assoc]
  · obtain ⟨a1, b1, -⟩ := mul_fine hx hy h1
    obtain ⟨a2, b2, -⟩ := mul_fine a1 hz h2
    obtain ⟨a3, b3, -⟩ := mul_fine hy hz h3
    obtain ⟨a4, b4, -⟩ := mul_fine hx a3 h4
    refine done a2 a4 (b2 (b1 sx sy) sz) (b4 sx (b3 sy sz)) ?_
    rw [qint_mul_value cfg _ _ _ a1 hz h2, qint_mul_value cfg _ _ _ hx hy h1, qint_mul_value cfg _ _ _ hx a3 h4,
      qint_mul_value cfg _ _ _ hy hz h3, mul_assoc]
  · obtain ⟨a1, b1, -⟩ := add_fine hy hz h1
    obtain ⟨a2, b2, -⟩ := mul_fine hx a1 h2
    obtain ⟨a3, b3, -⟩ := mul_fine hx hy h3
    obtain ⟨a4, b4, -⟩ := mul_fine hx hz h4
    obtain ⟨a5, b5, -⟩ := add_fine a3 a4 h5
    refine done a2 a5 (b2 sx (b1 sy sz)) (b5 (b3 sx sy) (b4 sx sz)) ?_
    rw [qint_mul_value cfg _ _ _ hx a1 h2, qint_add_value cfg _ _ _ hy hz h1, qint_add_value cfg _ _ _ a3 a4 h5,
      qint_mul_value cfg _ _ _ hx hy h3, qint_mul_value cfg _ _ _ hx hz h4, mul_add]

/-- `(√2 + √18) · (1 + √2) = √2·(1 + √2) + √18·(1 + √2)` -/
example : (QInt.mk 0 1 18).Stored ∧ QInt.add ⟨false, true⟩ ⟨0, 1, 2⟩ ⟨0, 1, 18⟩ = .ok ⟨0, 4, 2⟩ ∧
    QInt.mul ⟨false, true⟩ ⟨1, 1, 2⟩ ⟨0, 4, 2⟩ = .ok ⟨8, 4, 2⟩ ∧
    QInt.mul ⟨false, true⟩ ⟨1, 1, 2⟩ ⟨0, 1, 2⟩ = .ok ⟨2, 1, 2⟩ ∧
    QInt.mul ⟨false, true⟩ ⟨1, 1, 2⟩ ⟨0, 1, 18⟩ = .ok ⟨6, 3, 2⟩ ∧
    QInt.add ⟨false, true⟩ ⟨2, 1, 2⟩ ⟨6, 3, 2⟩ = .ok ⟨8, 4, 2⟩ :=
  ⟨by unfold QInt.Stored; decide, by decide +kernel⟩

/-! ### One ring -/

/-- numbers of one ring are stored in one way -/
theorem QInt.inRing_inj {cfg : Cfg} {D : ℤ} {x y : QInt} (hx : x.InRing cfg D) (hy : y.InRing cfg D)
    (e : x.valC = y.valC) : x = y := by
  have hb : x.b = 0 ↔ y.b = 0 := by
    rw [← isRational_iff, ← isRational_iff, qint_isRational cfg x hx.ok, qint_isRational cfg y hy.ok, e]
  have hd : x.d = y.d := by
    by_cases h : x.b = 0
    · rw [hx.stored h, hy.stored (hb.1 h)]
    · rw [hx.discr h, hy.discr fun h' => h (hb.2 h')]
  have := (qint_eq_same_discr_partial cfg x y hx.ok hy.ok hd).2 e
  unfold QInt.eq at this
  rw [if_pos hd] at this
  simp only [Except.ok.injEq, decide_eq_true_eq] at this
  obtain ⟨_, _, _⟩ := x
  obtain ⟨_, _, _⟩ := y
  simp_all

private theorem fine_inRing {cfg : Cfg} {D : ℤ} {x y z : QInt} (hx : x.InRing cfg D) (hy : y.InRing cfg D)
    (h : Fine cfg x y z) : z.InRing cfg D := by
  refine ⟨h.1, h.2.1 hx.stored hy.stored, fun hz => ?_⟩
  rcases h.2.2 hz with ⟨h1, h2⟩ | ⟨h1, h2⟩
  · rw [h2, hx.discr h1]
  · rw [h2, hy.discr h1]

private theorem ring_returns {cfg : Cfg} {D : ℤ} {x y : QInt} (hx : x.InRing cfg D) (hy : y.InRing cfg D) :
    (∃ q : ℚ, x.valC = q) ∨ (∃ q : ℚ, y.valC = q) ∨ x.Compatible y := by
  by_cases h1 : x.b = 0
  · exact .inl ((qint_isRational cfg x hx.ok).1 ((isRational_iff x).2 h1))
  by_cases h2 : y.b = 0
  · exact .inr (.inl ((qint_isRational cfg y hy.ok).1 ((isRational_iff y).2 h2)))
  exact .inr (.inr ⟨1, .inl (by rw [hx.discr h1, hy.discr h2]; ring)⟩)

/-- **C92** within one ring `+`, `-` and `*` always return a number of the ring, with the exact value. -/
theorem qint_ring_ops (cfg : Cfg) (D : ℤ) (x y : QInt) (hx : x.InRing cfg D) (hy : y.InRing cfg D) :
    (∃ z, QInt.add cfg x y = .ok z ∧ z.InRing cfg D ∧ z.valC = x.valC + y.valC) ∧
    (∃ z, QInt.sub cfg x y = .ok z ∧ z.InRing cfg D ∧ z.valC = x.valC - y.valC) ∧
    (∃ z, QInt.mul cfg x y = .ok z ∧ z.InRing cfg D ∧ z.valC = x.valC * y.valC) ∧
    (x.neg.InRing cfg D ∧ x.neg.valC = -x.valC) ∧ QInt.zero.InRing cfg D ∧ QInt.one.InRing cfg D := by
  refine ⟨?_, ?_, ?_, ⟨⟨hx.ok.of_d rfl fun h => ?_, fun h => ?_, fun h => ?_⟩, (qint_int_ops x 0).1⟩,
    ⟨zero_ok, fun _ => rfl, fun h => absurd rfl h⟩, ⟨one_ok, fun _ => rfl, fun h => absurd rfl h⟩⟩
  · obtain ⟨z, hz⟩ := (qint_add_returns_iff cfg x y hx.ok hy.ok).2 (ring_returns hx hy)
    exact ⟨z, hz, fine_inRing hx hy (add_fine hx.ok hy.ok hz), qint_add_value cfg x y z hx.ok hy.ok hz⟩
  · obtain ⟨z, hz⟩ := (qint_sub_returns_iff cfg x y hx.ok hy.ok).2 (ring_returns hx hy)
    exact ⟨z, hz, fine_inRing hx hy (sub_fine hx.ok hy.ok hz), qint_sub_value cfg x y z hx.ok hy.ok hz⟩
  · obtain ⟨z, hz⟩ := (qint_mul_returns_iff cfg x y hx.ok hy.ok).2 (ring_returns hx hy)
    exact ⟨z, hz, fine_inRing hx hy (mul_fine hx.ok hy.ok hz), qint_mul_value cfg x y z hx.ok hy.ok hz⟩
  · simp [QInt.neg, h]
  · exact hx.stored (by simpa [QInt.neg] using h)
  · exact hx.discr fun h0 => h (by simp [QInt.neg, h0])

/-- **C92** within one ring all laws of a commutative ring hold, not only up to `==`: both sides return and return
the same representation. -/
theorem qint_ring_laws (cfg : Cfg) (D : ℤ) (x y z : QInt) (hx : x.InRing cfg D) (hy : y.InRing cfg D)
    (hz : z.InRing cfg D) :
    (∃ s, QInt.add cfg x y = .ok s ∧ QInt.add cfg y x = .ok s) ∧
    (∃ s, QInt.mul cfg x y = .ok s ∧ QInt.mul cfg y x = .ok s) ∧
    (∃ u v s, QInt.add cfg x y = .ok u ∧ QInt.add cfg u z = .ok s ∧ QInt.add cfg y z = .ok v ∧
      QInt.add cfg x v = .ok s) ∧
    (∃ u v s, QInt.mul cfg x y = .ok u ∧ QInt.mul cfg u z = .ok s ∧ QInt.mul cfg y z = .ok v ∧
      QInt.mul cfg x v = .ok s) ∧
    (∃ u v w s, QInt.add cfg y z = .ok u ∧ QInt.mul cfg x u = .ok s ∧ QInt.mul cfg x y = .ok v ∧
      QInt.mul cfg x z = .ok w ∧ QInt.add cfg v w = .ok s) ∧
    QInt.sub cfg x x = .ok QInt.zero ∧ QInt.add cfg x x.neg = .ok QInt.zero ∧
    QInt.add cfg x QInt.zero = .ok x ∧ QInt.mul cfg x QInt.one = .ok x ∧ QInt.mul cfg x QInt.zero = .ok QInt.zero ∧
    QInt.sub cfg x y = QInt.add cfg x y.neg := by
  have A := fun (x y : QInt) hx hy => (qint_ring_ops cfg D x y hx hy).1
  have S := fun (x y : QInt) hx hy => (qint_ring_ops cfg D x y hx hy).2.1
  have M := fun (x y : QInt) hx hy => (qint_ring_ops cfg D x y hx hy).2.2.1
  have hn := (qint_ring_ops cfg D x y hx hy).2.2.2.1
  have hn' := (qint_ring_ops cfg D y y hy hy).2.2.2.1
  have h0 : QInt.zero.InRing cfg D := (qint_ring_ops cfg D x y hx hy).2.2.2.2.1
  have h1 : QInt.one.InRing cfg D := (qint_ring_ops cfg D x y hx hy).2.2.2.2.2
  have v0 : QInt.zero.valC = 0 := by simp [QInt.zero, valC]
  have v1 : QInt.one.valC = 1 := by simp [QInt.one, valC]
  obtain ⟨a1, e1, i1, w1⟩ := A x y hx hy
  obtain ⟨a2, e2, i2, w2⟩ := A y x hy hx
  obtain ⟨a3, e3, i3, w3⟩ := A a1 z i1 hz
  obtain ⟨a4, e4, i4, w4⟩ := A y z hy hz
  obtain ⟨a5, e5, i5, w5⟩ := A x a4 hx i4
  obtain ⟨m1, f1, j1, t1⟩ := M x y hx hy
  obtain ⟨m2, f2, j2, t2⟩ := M y x hy hx
  obtain ⟨m3, f3, j3, t3⟩ := M m1 z j1 hz
  obtain ⟨m4, f4, j4, t4⟩ := M y z hy hz
  obtain ⟨m5, f5, j5, t5⟩ := M x m4 hx j4
  obtain ⟨m6, f6, j6, t6⟩ := M x a4 hx i4
  obtain ⟨m7, f7, j7, t7⟩ := M x z hx hz
  obtain ⟨a6, e6, i6, w6⟩ := A m1 m7 j1 j7
  obtain ⟨s1, g1, k1, r1⟩ := S x x hx hx
  obtain ⟨s2, g2, k2, r2⟩ := A x x.neg hx hn.1
  obtain ⟨s3, g3, k3, r3⟩ := A x QInt.zero hx h0
  obtain ⟨s4, g4, k4, r4⟩ := M x QInt.one hx h1
  obtain ⟨s5, g5, k5, r5⟩ := M x QInt.zero hx h0
  obtain ⟨s6, g6, k6, r6⟩ := S x y hx hy
  obtain ⟨s7, g7, k7, r7⟩ := A x y.neg hx hn'.1
  refine ⟨⟨a1, e1, ?_⟩, ⟨m1, f1, ?_⟩, ⟨a1, a4, a3, e1, e3, e4, ?_⟩, ⟨m1, m4, m3, f1, f3, f4, ?_⟩,
    ⟨a4, m1, m7, m6, e4, f6, f1, f7, ?_⟩, ?_, ?_, ?_, ?_, ?_, ?_⟩
  · rw [e2, inRing_inj i2 i1 (by rw [w1, w2]; ring)]
  · rw [f2, inRing_inj j2 j1 (by rw [t1, t2]; ring)]
  · rw [e5, inRing_inj i5 i3 (by rw [w5, w4, w3, w1]; ring)]
  · rw [f5, inRing_inj j5 j3 (by rw [t5, t4, t3, t1]; ring)]
  · rw [e6, inRing_inj i6 j6 (by rw [w6, t1, t7, t6, w4]; ring)]
  · rw [g1, inRing_inj k1 h0 (by rw [r1, v0]; ring)]
  · rw [g2, inRing_inj k2 h0 (by rw [r2, hn.2, v0]; ring)]
  · rw [g3, inRing_inj k3 hx (by rw [r3, v0]; ring)]
  · rw [g4, inRing_inj k4 hx (by rw [r4, v1]; ring)]
  · rw [g5, inRing_inj k5 h0 (by rw [r5, v0]; ring)]
  · rw [g6, g7, inRing_inj k6 k7 (by rw [r6, r7, hn'.2]; ring)]

example : (QInt.mk 3 5 2).InRing ⟨false, true⟩ 2 ∧ (QInt.mk 7 0 0).InRing ⟨false, true⟩ 2 := by
  refine ⟨⟨⟨by decide, by decide, fun _ => ?_, by decide⟩, by unfold QInt.Stored; decide, fun _ => rfl⟩,
    ⟨⟨by decide, by decide, by decide, by decide⟩, fun _ => rfl, by decide⟩⟩
  rw [← isqrt_natAbs_iff]; decide +kernel

/-! ### Division undoes multiplication, in one ring -/

private theorem roundAway_int {m n : ℤ} (h : RoundAway (m : ℚ) n) : n = m := by
  have h1 := h.1
  rw [← Int.cast_sub, ← Int.cast_abs] at h1
  have : ((|m - n| : ℤ) : ℚ) < 1 := by linarith
  have : |m - n| < 1 := by exact_mod_cast this
  rw [Int.abs_lt_one_iff] at this
  omega

/-- **C92** within one ring `(x * y) / y` returns `x` for every `y` except zero. -/
theorem qint_mul_div (cfg : Cfg) (D : ℤ) (x y : QInt) (hx : x.InRing cfg D) (hy : y.InRing cfg D)
    (hy0 : y.valC ≠ 0) : ∃ z, QInt.mul cfg x y = .ok z ∧ QInt.div cfg z y = .ok x := by
  obtain ⟨z, hz, iz, vz⟩ := (qint_ring_ops cfg D x y hx hy).2.2.1
  refine ⟨z, hz, ?_⟩
  by_cases hb : y.b = 0
  · have hr : y.isRational = true := (isRational_iff y).2 hb
    have ha : y.a ≠ 0 := fun h => hy0 (by rw [valC_rational hb, h]; simp)
    unfold QInt.mul at hz
    rw [if_pos hr] at hz
    cases hz
    unfold QInt.div
    rw [if_pos hr]
    unfold QInt.mulInt
    rw [if_neg ha]
    simp only [divInt, QCoeffs.divInt, QCoeffs.mulInt, coeffs, mk', divRemRound_exact _ ha, bind, Except.bind]
    rfl
  · have hd := hy.discr hb
    have hyr : ¬ y.isRational = true := by rwa [isRational_iff]
    have hD0 : y.d ≠ 0 := fun h => hb (hy.ok.rational h)
    obtain ⟨w, hw⟩ := (qint_div_returns_iff cfg z y iz.ok hy.ok).2 ⟨hy0, ring_returns iz hy⟩
    have hwr : w.InRing cfg D := by
      have h := hw
      unfold QInt.div at h
      rw [if_neg hyr] at h
      split at h
      · obtain ⟨c, -, h⟩ := bind_ok h
        obtain ⟨h1, h2, h3⟩ := fromCoeffs_form h (hy.ok.mod4 hD0) (hy.ok.irrational hD0) hy.ok.real
        exact ⟨h1, h2, fun h => by rw [h3 h, hd]⟩
      · next hzb =>
        rw [isRational_iff] at hzb
        obtain ⟨p, hp, h⟩ := bind_ok h
        obtain ⟨c, -, h⟩ := bind_ok h
        exact fine_inRing iz hy (fine_of_matched hzb hb (matched iz.ok hy.ok hzb hb hp) h)
    obtain ⟨D', u, v, m, n, hD', e, ru, rv, hv⟩ := qint_div_value cfg z y w iz.ok hy.ok hw
    rw [vz, mul_div_assoc, div_self hy0, mul_one] at e
    rw [hw]
    refine congrArg Except.ok (inRing_inj hwr hx ?_)
    have hcase : D' = D ∨ (D' = 0) := by
      rcases hD' with h | h
      · by_cases hzb : z.b = 0
        · right; rw [h, iz.stored hzb]
        · left; rw [h, iz.discr hzb]
      · left; rw [h, hd]
    rcases hcase with rfl | rfl
    · have hs : ¬ IsSquare D' := hd ▸ hy.ok.irrational hD0
      have hxv : x.valC = x.a + x.b * omegaC D' := by
        by_cases h : x.b = 0
        · rw [valC_rational h, h]; simp
        · unfold QInt.valC; rw [hx.discr h]
      rw [hxv] at e
      have := omega_coeff_eq hs (x := x.a) (y := x.b) (x' := u) (y' := v) (by push_cast; exact e)
      rw [← this.1] at ru
      rw [← this.2] at rv
      rw [hv, hxv, roundAway_int ru, roundAway_int rv]
    · have h0 : omegaC 0 = 0 := by simp [omegaC, rootC]
      rw [h0, mul_zero, add_zero] at e hv
      have hxb : x.b = 0 := (isRational_iff x).1 ((qint_isRational cfg x hx.ok).2 ⟨u, e⟩)
      rw [valC_rational hxb] at e ⊢
      have : u = x.a := by exact_mod_cast e.symm
      rw [this] at ru
      rw [hv, roundAway_int ru]

example : QInt.mul ⟨false, true⟩ ⟨3, -2, 5⟩ ⟨1, 4, 5⟩ = .ok ⟨-5, 2, 5⟩ ∧
    QInt.div ⟨false, true⟩ ⟨-5, 2, 5⟩ ⟨1, 4, 5⟩ = .ok ⟨3, -2, 5⟩ := by decide +kernel

/-- C92 is false: `u = (3 + √2)/3` is stored as `1` with discriminant 2, and then `u + 1 == 1 + u` and `u - u == 0` are
false; `(√18 + √50) + (-√50)` panics where `√18 + (√50 + (-√50))` returns; and `(√2 * √18) / √18` is `0`, not `√2`. -/
theorem qint_laws_refuted (cfg : Cfg) :
    (QInt.new cfg 3 1 2 = .ok ⟨3, 1, 2⟩ ∧ QInt.divInt ⟨3, 1, 2⟩ 3 = .ok ⟨1, 0, 2⟩ ∧
      QInt.add cfg ⟨1, 0, 2⟩ QInt.one = .ok ⟨2, 0, 2⟩ ∧ QInt.add cfg QInt.one ⟨1, 0, 2⟩ = .ok ⟨2, 0, 0⟩ ∧
      QInt.eq ⟨2, 0, 2⟩ ⟨2, 0, 0⟩ = .ok false ∧
      QInt.sub cfg ⟨1, 0, 2⟩ ⟨1, 0, 2⟩ = .ok ⟨0, 0, 2⟩ ∧ QInt.eq ⟨0, 0, 2⟩ QInt.zero = .ok false) ∧
    (QInt.new cfg 0 1 18 = .ok ⟨0, 1, 18⟩ ∧ QInt.new cfg 0 1 50 = .ok ⟨0, 1, 50⟩ ∧
      QInt.add cfg ⟨0, 1, 18⟩ ⟨0, 1, 50⟩ = .error .incompatible ∧
      QInt.add cfg ⟨0, 1, 50⟩ (QInt.neg ⟨0, 1, 50⟩) = .ok QInt.zero ∧
      QInt.add cfg ⟨0, 1, 18⟩ QInt.zero = .ok ⟨0, 1, 18⟩) ∧
    (QInt.mul cfg ⟨0, 1, 2⟩ ⟨0, 1, 18⟩ = .ok ⟨6, 0, 0⟩ ∧ QInt.div cfg ⟨6, 0, 0⟩ ⟨0, 1, 18⟩ = .ok QInt.zero) := by
  obtain ⟨c, d⟩ := cfg
  cases c <;> cases d <;> decide +kernel

/-! ### Gaussian integers -/

/-- **C92** `GaussianInt` is a commutative ring: no operation panics and the laws hold. -/
theorem gint_ring_laws (x y z : GInt) :
    x.add y = y.add x ∧ x.mul y = y.mul x ∧ (x.add y).add z = x.add (y.add z) ∧
    (∃ u v s, x.mul y = .ok u ∧ u.mul z = .ok s ∧ y.mul z = .ok v ∧ x.mul v = .ok s) ∧
    (∃ v w s, x.mul (y.add z) = .ok s ∧ x.mul y = .ok v ∧ x.mul z = .ok w ∧ v.add w = s) ∧
    x.sub x = ⟨0, 0⟩ ∧ x.add ⟨0, 0⟩ = x ∧ x.mul ⟨1, 0⟩ = .ok x ∧ (x.sub y).add y = x := by
  have A := fun x y => (gint_ring_ops x y).1
  have S := fun x y => (gint_ring_ops x y).2.1
  have M := fun x y => (gint_ring_ops x y).2.2.1
  have v0 : GInt.valC ⟨0, 0⟩ = 0 := by simp [GInt.valC]
  have v1 : GInt.valC ⟨1, 0⟩ = 1 := by simp [GInt.valC]
  obtain ⟨m1, f1, t1⟩ := M x y
  obtain ⟨m2, f2, t2⟩ := M y x
  obtain ⟨m3, f3, t3⟩ := M m1 z
  obtain ⟨m4, f4, t4⟩ := M y z
  obtain ⟨m5, f5, t5⟩ := M x m4
  obtain ⟨m6, f6, t6⟩ := M x (y.add z)
  obtain ⟨m7, f7, t7⟩ := M x z
  obtain ⟨m8, f8, t8⟩ := M x ⟨1, 0⟩
  refine ⟨?_, ?_, ?_, ⟨m1, m4, m3, f1, f3, f4, ?_⟩, ⟨m1, m7, m6, f6, f1, f7, ?_⟩, ?_, ?_, ?_, ?_⟩
  · exact gint_valC_inj _ _ (by rw [A, A]; ring)
  · rw [f1, f2, gint_valC_inj m1 m2 (by rw [t1, t2]; ring)]
  · exact gint_valC_inj _ _ (by rw [A, A, A, A]; ring)
  · rw [f5, gint_valC_inj m5 m3 (by rw [t5, t4, t3, t1]; ring)]
  · exact gint_valC_inj _ _ (by rw [A, t1, t7, t6, A]; ring)
  · exact gint_valC_inj _ _ (by rw [S, v0]; ring)
  · exact gint_valC_inj _ _ (by rw [A, v0]; ring)
  · rw [f8, gint_valC_inj m8 x (by rw [t8, v1]; ring)]
  · exact gint_valC_inj _ _ (by rw [A, S]; ring)
example : GInt.mul ⟨2, -3⟩ ((GInt.mk 1 4).add ⟨5, -1⟩) = .ok ⟨21, -12⟩ ∧ GInt.mul ⟨2, -3⟩ ⟨1, 4⟩ = .ok ⟨14, 5⟩ ∧
    GInt.mul ⟨2, -3⟩ ⟨5, -1⟩ = .ok ⟨7, -17⟩ := by decide +kernel

/-- **C92** for Gaussian integers, division undoes multiplication. -/
theorem gint_mul_div (x y : GInt) (hy : y.valC ≠ 0) :
    ∃ z, x.mul y = .ok z ∧ z.div y = .ok x ∧ z.rem y = .ok ⟨0, 0⟩ := by
  obtain ⟨z, hz, vz⟩ := (gint_ring_ops x y).2.2.1
  obtain ⟨q, r, h1, h2, h3, -, -, u, v, h4, h5, h6⟩ := gint_euclid z y hy
  rw [vz, mul_div_assoc, div_self hy, mul_one] at h4
  have hu : u = x.re := by
    have := congrArg Complex.re h4
    simp [GInt.valC] at this
    exact_mod_cast this.symm
  have hv : v = x.im := by
    have := congrArg Complex.im h4
    simp [GInt.valC] at this
    exact_mod_cast this.symm
  rw [hu] at h5
  rw [hv] at h6
  have hq : q = x := by
    have e1 := roundAway_int h5
    have e2 := roundAway_int h6
    cases q; cases x; simp_all
  refine ⟨z, hz, by rw [h1, hq], ?_⟩
  rw [h2, gint_valC_inj r ⟨0, 0⟩]
  rw [vz, hq] at h3
  have : r.valC = 0 := by linear_combination -h3
  rw [this]; simp [GInt.valC]

example : GInt.mul ⟨3, 4⟩ ⟨1, -2⟩ = .ok ⟨11, -2⟩ ∧ GInt.div ⟨11, -2⟩ ⟨1, -2⟩ = .ok ⟨3, 4⟩ := by decide +kernel

end NumIrr
