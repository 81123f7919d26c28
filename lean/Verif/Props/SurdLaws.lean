/-
C91: the laws of arithmetic for quadratic surds, up to `==`.
-/
import Verif.Props.SurdArith
import Verif.Props.SurdEq
import Verif.Props.SurdRound

namespace NumIrr
open Surd

private theorem fields_eq {x y : Surd} (h : x.a = y.a ∧ x.b = y.b ∧ x.c = y.c ∧ x.r = y.r) : x = y := by
  obtain ⟨_, _, _, _⟩ := x
  obtain ⟨_, _, _, _⟩ := y
  simpa using h

/-! ### Commutativity: holds as stated -/

private theorem zero_or_compat {x y : Surd} (h : x.r = 0 ∨ y.r = 0 ∨ x.Compatible y) :
    y.r = 0 ∨ x.r = 0 ∨ y.Compatible x := by
  rcases h with h | h | h
  · exact .inr (.inl h)
  · exact .inl h
  · exact .inr (.inr (compatible_symm h))

/-- `x + y == y + x`, and one panics exactly if the other does. -/
theorem surd_add_comm (cfg : Cfg) (x y : Surd) (hx : x.Ok cfg) (hy : y.Ok cfg) :
    (∃ z z', Surd.add cfg x y = .ok z ∧ Surd.add cfg y x = .ok z' ∧ z.valC = z'.valC ∧ Surd.eq z z' = true) ∨
    (Surd.add cfg x y = .error .incompatible ∧ Surd.add cfg y x = .error .incompatible) := by
  obtain ⟨h1, h2⟩ := add_spec hx hy
  obtain ⟨h1', h2'⟩ := add_spec hy hx
  by_cases hc : x.r = 0 ∨ y.r = 0 ∨ x.Compatible y
  · obtain ⟨z, e, hv, ho⟩ := h1 hc
    obtain ⟨z', e', hv', ho'⟩ := h1' (zero_or_compat hc)
    have : z.valC = z'.valC := by rw [hv, hv', add_comm]
    exact .inl ⟨z, z', e, e', this, surd_eq_complete cfg z z' ho ho' this⟩
  · exact .inr ⟨h2 hc, h2' fun h => hc (zero_or_compat h)⟩

/-- `x * y == y * x`, and one panics exactly if the other does. -/
theorem surd_mul_comm (cfg : Cfg) (x y : Surd) (hx : x.Ok cfg) (hy : y.Ok cfg) :
    (∃ z z', Surd.mul cfg x y = .ok z ∧ Surd.mul cfg y x = .ok z' ∧ z.valC = z'.valC ∧ Surd.eq z z' = true) ∨
    (Surd.mul cfg x y = .error .incompatible ∧ Surd.mul cfg y x = .error .incompatible) := by
  obtain ⟨h1, h2⟩ := mul_spec hx hy
  obtain ⟨h1', h2'⟩ := mul_spec hy hx
  have hs : ∀ {x y : Surd}, (x.r = 0 ∨ y.r = 0 ∨ (x.a = 0 ∧ y.a = 0) ∨ x.Compatible y) →
      (y.r = 0 ∨ x.r = 0 ∨ (y.a = 0 ∧ x.a = 0) ∨ y.Compatible x) := by
    rintro x y (h | h | h | h)
    · exact .inr (.inl h)
    · exact .inl h
    · exact .inr (.inr (.inl ⟨h.2, h.1⟩))
    · exact .inr (.inr (.inr (compatible_symm h)))
  have hp : pureSign x y = pureSign y x := by
    unfold pureSign
    have : (x.a = 0 ∧ y.a = 0 ∧ x.r < 0 ∧ y.r < 0) ↔ (y.a = 0 ∧ x.a = 0 ∧ y.r < 0 ∧ x.r < 0) := by tauto
    simp only [this]
  by_cases hc : x.r = 0 ∨ y.r = 0 ∨ (x.a = 0 ∧ y.a = 0) ∨ x.Compatible y
  · obtain ⟨z, e, hv, ho⟩ := h1 hc
    obtain ⟨z', e', hv', ho'⟩ := h1' (hs hc)
    have : z.valC = z'.valC := by rw [hv, hv', hp, mul_comm x.valC]
    exact .inl ⟨z, z', e, e', this, surd_eq_complete cfg z z' ho ho' this⟩
  · exact .inr ⟨h2 hc, h2' fun h => hc (hs h)⟩

example : (Surd.mk 0 1 1 8).Ok ⟨false, true⟩ ∧ (Surd.mk 1 1 3 2).Ok ⟨false, true⟩ ∧
    Surd.add ⟨false, true⟩ ⟨1, 1, 3, 2⟩ ⟨0, 1, 1, 8⟩ = .ok ⟨1, 7, 3, 2⟩ := by decide +kernel

/-! ### Inverses -/

/-- `x - x` and `x + (-x)` return zero. -/
theorem surd_sub_self (cfg : Cfg) (x : Surd) (hx : x.Ok cfg) :
    Surd.sub cfg x x = .ok Surd.zero ∧ Surd.add cfg x (Surd.neg x) = .ok Surd.zero := by
  have key : ∀ z : Surd, z.Ok cfg → z.valC = 0 → z = Surd.zero := fun z hz hv => by
    obtain ⟨h1, h2⟩ := (valC_eq_zero_iff hz.toNormal).1 hv
    have h3 := hz.rational.1 h2
    refine fields_eq ?_
    have e : Surd.zero.Normal := by decide +kernel
    have := fields_of_valC_eq hz.toNormal e (by rw [h3]; rfl) (by rw [hv]; simp [Surd.valC, quadC, Surd.zero])
    exact ⟨this.1, this.2.1, this.2.2, h3⟩
  constructor
  · obtain ⟨z, e, hv, ho⟩ := (sub_spec hx hx).1 (by
      by_cases h : x.r = 0
      · exact .inl h
      · exact .inr (.inr ⟨1, by simp⟩))
    rw [e, key z ho (by rw [hv, sub_self])]
  · obtain ⟨hn1, hn2⟩ := surd_neg_value cfg x hx
    obtain ⟨z, e, hv, ho⟩ := (add_spec hx hn2).1 (by
      by_cases h : x.r = 0
      · exact .inl h
      · exact .inr (.inr ⟨1, by simp [Surd.neg]⟩))
    rw [e, key z ho (by rw [hv, hn1, add_neg_cancel])]

/-- `x / x` returns one for every real number except zero. -/
theorem surd_div_self (cfg : Cfg) (x : Surd) (hx : x.RealOk) (h0 : x.val ≠ 0) :
    Surd.div cfg x x = .ok Surd.one := by
  have hc0 : x.valC ≠ 0 := by rw [hx.valC]; exact_mod_cast h0
  obtain ⟨z, hz⟩ := (surd_div_returns_iff cfg x x (hx.toOk cfg) (hx.toOk cfg)).2 ⟨hc0, by
    by_cases h : x.r = 0
    · exact .inl h
    · exact .inr (.inr ⟨h, .inr ⟨1, by simp⟩⟩)⟩
  obtain ⟨-, h1, h2⟩ := surd_div_value_real cfg x x z hx hx hz
  rw [div_self h0] at h2
  have hv : z.valC = 1 := by rw [h1.valC, h2]; simp
  have := (surd_isOne cfg z (h1.toOk cfg)).2 hv
  rw [hz]
  simp only [Surd.isOne, Bool.and_eq_true, decide_eq_true_eq] at this
  refine congrArg Except.ok ?_
  have e : Surd.one.Normal := by decide +kernel
  have hb : z.b = 0 := by tauto
  have hr : z.r = 0 := h1.rational.1 hb
  have hf := fields_of_valC_eq h1.toNormal e (by rw [hr]; rfl) (by rw [hv]; simp [Surd.valC, quadC, Surd.one])
  exact fields_eq ⟨hf.1, hf.2.1, hf.2.2, hr⟩

example : (Surd.mk 3 (-1) 2 5).RealOk ∧ Surd.div ⟨false, true⟩ ⟨3, -1, 2, 5⟩ ⟨3, -1, 2, 5⟩ = .ok Surd.one := by
  decide +kernel

/-! ### Associativity and distributivity -/

/-- C91, restricted: for real numbers, associativity and distributivity hold whenever both sides return.  (Missing from
the full claim: one side may panic when the other returns, and the laws are false with the `complex` feature; see
`surd_laws_refuted`.) -/
theorem surd_laws_partial (cfg : Cfg) (x y z : Surd) (hx : x.RealOk) (hy : y.RealOk) (hz : z.RealOk) :
    (∀ u v s t, Surd.add cfg x y = .ok u → Surd.add cfg u z = .ok s → Surd.add cfg y z = .ok v →
      Surd.add cfg x v = .ok t → s.val = t.val ∧ Surd.eq s t = true) ∧
    (∀ u v s t, Surd.mul cfg x y = .ok u → Surd.mul cfg u z = .ok s → Surd.mul cfg y z = .ok v →
      Surd.mul cfg x v = .ok t → s.val = t.val ∧ Surd.eq s t = true) ∧
    (∀ u v w s t, Surd.add cfg y z = .ok u → Surd.mul cfg x u = .ok s → Surd.mul cfg x y = .ok v →
      Surd.mul cfg x z = .ok w → Surd.add cfg v w = .ok t → s.val = t.val ∧ Surd.eq s t = true) := by
  have fin : ∀ s t : Surd, s.RealOk → t.RealOk → s.val = t.val → s.val = t.val ∧ Surd.eq s t = true :=
    fun s t hs ht e => ⟨e, surd_eq_complete cfg s t (hs.toOk cfg) (ht.toOk cfg) (by rw [hs.valC, ht.valC, e])⟩
  refine ⟨fun u v s t h1 h2 h3 h4 => ?_, fun u v s t h1 h2 h3 h4 => ?_, fun u v w s t h1 h2 h3 h4 h5 => ?_⟩
  · obtain ⟨a1, b1⟩ := surd_add_value_real cfg x y u hx hy h1
    obtain ⟨a2, b2⟩ := surd_add_value_real cfg u z s a1 hz h2
    obtain ⟨a3, b3⟩ := surd_add_value_real cfg y z v hy hz h3
    obtain ⟨a4, b4⟩ := surd_add_value_real cfg x v t hx a3 h4
    exact fin s t a2 a4 (by rw [b2, b4, b1, b3]; ring)
  · obtain ⟨a1, b1⟩ := surd_mul_value_real cfg x y u hx hy h1
    obtain ⟨a2, b2⟩ := surd_mul_value_real cfg u z s a1 hz h2
    obtain ⟨a3, b3⟩ := surd_mul_value_real cfg y z v hy hz h3
    obtain ⟨a4, b4⟩ := surd_mul_value_real cfg x v t hx a3 h4
    exact fin s t a2 a4 (by rw [b2, b4, b1, b3]; ring)
  · obtain ⟨a1, b1⟩ := surd_add_value_real cfg y z u hy hz h1
    obtain ⟨a2, b2⟩ := surd_mul_value_real cfg x u s hx a1 h2
    obtain ⟨a3, b3⟩ := surd_mul_value_real cfg x y v hx hy h3
    obtain ⟨a4, b4⟩ := surd_mul_value_real cfg x z w hx hz h4
    obtain ⟨a5, b5⟩ := surd_add_value_real cfg v w t a3 a4 h5
    exact fin s t a2 a5 (by rw [b2, b5, b1, b3, b4]; ring)

/-- `√8 · (√2 · √6) = (√8 · √2) · √6`, with operands that have three different roots -/
example : (Surd.mk 0 1 1 8).RealOk ∧ (Surd.mk 0 1 1 2).RealOk ∧ (Surd.mk 0 1 1 6).RealOk ∧
    Surd.mul ⟨false, true⟩ ⟨0, 1, 1, 8⟩ ⟨0, 1, 1, 2⟩ = .ok ⟨4, 0, 1, 0⟩ ∧
    Surd.mul ⟨false, true⟩ ⟨4, 0, 1, 0⟩ ⟨0, 1, 1, 6⟩ = .ok ⟨0, 4, 1, 6⟩ ∧
    Surd.mul ⟨false, true⟩ ⟨0, 1, 1, 2⟩ ⟨0, 1, 1, 6⟩ = .ok ⟨0, 2, 1, 3⟩ ∧
    Surd.mul ⟨false, true⟩ ⟨0, 1, 1, 8⟩ ⟨0, 2, 1, 3⟩ = .ok ⟨0, 2, 1, 24⟩ ∧
    Surd.eq ⟨0, 4, 1, 6⟩ ⟨0, 2, 1, 24⟩ = true := by decide +kernel

/-- C91 is false: `(√8 + √18) + (-√18)` panics where `√8 + (√18 + (-√18))` returns `√8`, although all the numbers are
rational multiples of `√2`; `(1 + √8)·(√18 - √18)` returns, and the products with the terms panic; and with the
`complex` feature `(i·i)·(1 + i) = 1 + i` but `i·(i·(1 + i)) = -1 - i`. -/
theorem surd_laws_refuted (debug : Bool) :
    (∀ cx, Surd.add ⟨cx, debug⟩ ⟨0, 1, 1, 8⟩ ⟨0, 1, 1, 18⟩ = .error .incompatible ∧
      Surd.add ⟨cx, debug⟩ ⟨0, 1, 1, 18⟩ ⟨0, -1, 1, 18⟩ = .ok Surd.zero ∧
      Surd.add ⟨cx, debug⟩ ⟨0, 1, 1, 8⟩ Surd.zero = .ok ⟨0, 1, 1, 8⟩) ∧
    (∀ cx, Surd.mul ⟨cx, debug⟩ ⟨1, 1, 1, 8⟩ Surd.zero = .ok Surd.zero ∧
      Surd.mul ⟨cx, debug⟩ ⟨1, 1, 1, 8⟩ ⟨0, 1, 1, 18⟩ = .error .incompatible) ∧
    (Surd.mul ⟨true, debug⟩ ⟨0, 1, 1, -1⟩ ⟨0, 1, 1, -1⟩ = .ok Surd.one ∧
      Surd.mul ⟨true, debug⟩ Surd.one ⟨1, 1, 1, -1⟩ = .ok ⟨1, 1, 1, -1⟩ ∧
      Surd.mul ⟨true, debug⟩ ⟨0, 1, 1, -1⟩ ⟨1, 1, 1, -1⟩ = .ok ⟨-1, 1, 1, -1⟩ ∧
      Surd.mul ⟨true, debug⟩ ⟨0, 1, 1, -1⟩ ⟨-1, 1, 1, -1⟩ = .ok ⟨-1, -1, 1, -1⟩ ∧
      Surd.eq ⟨1, 1, 1, -1⟩ ⟨-1, -1, 1, -1⟩ = false) := by
  refine ⟨fun cx => ?_, fun cx => ?_, ?_⟩
  · cases cx <;> cases debug <;> decide +kernel
  · cases cx <;> cases debug <;> decide +kernel
  · cases debug <;> decide +kernel

end NumIrr
