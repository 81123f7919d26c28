/-
C145: powers of quadratic integers over primitive integers.
-/
import Verif.Props.Pow
import Verif.Props.QFormulaMod

namespace NumIrr

section generic
variable {α β : Type} {mul : α → α → Res α} {mul' : β → β → Res β} {R : α → β → Prop}

/-- two products that agree give powers that agree -/
private theorem strip_sim (h : ∀ x y x' y', R x x' → R y y' → ∃ z z', mul x y = .ok z ∧ mul' x' y' = .ok z' ∧ R z z')
    (f : ℕ) (b : α) (b' : β) (e : ℕ) (hb : R b b') :
    ∃ p p', powStrip mul f b e = .ok p ∧ powStrip mul' f b' e = .ok p' ∧ R p.1 p'.1 ∧ p.2 = p'.2 := by
  induction f generalizing b b' e with
  | zero => exact ⟨_, _, rfl, rfl, hb, rfl⟩
  | succ f ih =>
    unfold powStrip
    split
    · obtain ⟨z, z', h1, h2, h3⟩ := h b b b' b' hb hb
      rw [h1, h2]
      exact ih z z' (e / 2) h3
    · exact ⟨_, _, rfl, rfl, hb, rfl⟩

private theorem loop_sim (h : ∀ x y x' y', R x x' → R y y' → ∃ z z', mul x y = .ok z ∧ mul' x' y' = .ok z' ∧ R z z')
    (f : ℕ) (a b : α) (a' b' : β) (e : ℕ) (ha : R a a') (hb : R b b') :
    ∃ z z', powLoop mul f a b e = .ok z ∧ powLoop mul' f a' b' e = .ok z' ∧ R z z' := by
  induction f generalizing a b a' b' e with
  | zero => exact ⟨_, _, rfl, rfl, ha⟩
  | succ f ih =>
    unfold powLoop
    split
    · obtain ⟨z, z', h1, h2, h3⟩ := h b b b' b' hb hb
      rw [h1, h2, Surd.ok_bind, Surd.ok_bind]
      split
      · obtain ⟨w, w', k1, k2, k3⟩ := h a z a' z' ha h3
        rw [k1, k2]
        exact ih w z w' z' (e / 2) k3 h3
      · exact ih a z a' z' (e / 2) ha h3
    · exact ⟨_, _, rfl, rfl, ha⟩

private theorem pow_sim (h : ∀ x y x' y', R x x' → R y y' → ∃ z z', mul x y = .ok z ∧ mul' x' y' = .ok z' ∧ R z z')
    {one b : α} {one' b' : β} (h1 : R one one') (hb : R b b') (e : ℕ) :
    ∃ z z', powRun one mul b e = .ok z ∧ powRun one' mul' b' e = .ok z' ∧ R z z' := by
  unfold powRun
  split
  · exact ⟨_, _, rfl, rfl, h1⟩
  · obtain ⟨p, p', k1, k2, k3, k4⟩ := strip_sim h e b b' e hb
    rw [k1, k2, Surd.ok_bind, Surd.ok_bind, k4]
    split
    · exact ⟨_, _, rfl, rfl, k3⟩
    · exact loop_sim h _ _ _ _ _ _ k3 k3

end generic

/-- **C145** With overflow checks the power of a quadratic integer is the right one or an overflow panic. -/
theorem fixed_qint_pow (x : Fx) (hx : x.checks = true) (cfg : Cfg) (u : QInt) (e : ℕ) :
    Refines (powRun QInt.one (x.qMul cfg) u e) (powRun QInt.one (QInt.mul cfg) u e) :=
  pow_refines (fun l r => Fx.qMul_ref hx cfg l r) _ _ _

/-- **C145** Without overflow checks the power of a quadratic integer always returns; its coefficients are those of the right
power modulo `2^w`, hence the right ones if they fit. -/
theorem fixed_qint_pow_release (x : Fx) (hw : 3 ≤ x.w) (hx : x.checks = false) (cfg : Cfg) (D : ℤ) (hD : x.Discr cfg D) (u : QInt)
    (hu : u.InRing cfg D) (ha : x.Holds u.a) (hb : x.Holds u.b) (e : ℕ) :
    ∃ z t, powRun QInt.one (x.qMul cfg) u e = .ok z ∧ powRun QInt.one (QInt.mul cfg) u e = .ok t ∧
      t.valC = u.valC ^ e ∧ z.a ≡ t.a [ZMOD 2 ^ x.w] ∧ z.b ≡ t.b [ZMOD 2 ^ x.w] ∧
      (x.Holds t.a → z.a = t.a) ∧ (x.Holds t.b → z.b = t.b) := by
  have hw' : 2 ≤ x.w := by omega
  have hmul : ∀ y z y' z' : QInt, (x.Is D y (x.md y'.a) (x.md y'.b) ∧ y'.InRing cfg D) →
      (x.Is D z (x.md z'.a) (x.md z'.b) ∧ z'.InRing cfg D) →
      ∃ t s, x.qMul cfg y z = .ok t ∧ QInt.mul cfg y' z' = .ok s ∧ x.Is D t (x.md s.a) (x.md s.b) ∧ s.InRing cfg D := by
    rintro y z y' z' ⟨g1, g2⟩ ⟨k1, k2⟩
    obtain ⟨t, t1, t2⟩ := Fx.mul_is hw hx hD g1.ring k1.ring
    obtain ⟨s, s1, s2, s3⟩ := (qint_ring_ops cfg D y' z' g2 k2).2.2.1
    refine ⟨t, s, t1, s1, ?_, s2⟩
    have hq := QFormula.om_sq (D := D) (rootC_mul_self D)
    obtain ⟨e1, e2⟩ := QFormula.coord_exact hD.irrational s2 (p := y'.a * z'.a + omegaSq D * (y'.b * z'.b))
      (q := y'.a * z'.b + y'.b * z'.a + omegaLin D * (y'.b * z'.b)) (by
        rw [s3, QFormula.valC_om g2, QFormula.valC_om k2]
        push_cast
        linear_combination (y'.b * z'.b : ℂ) * hq)
    refine ⟨t2.ring, ?_, ?_⟩
    · rw [t2.a, g1.a, g1.b, k1.a, k1.b, e1]; simp [Fx.md]
    · rw [t2.b, g1.a, g1.b, k1.a, k1.b, e2]; simp [Fx.md]
  obtain ⟨z, t, h1, h2, h3, h4⟩ := pow_sim (R := fun z t => x.Is D z (x.md t.a) (x.md t.b) ∧ t.InRing cfg D) hmul
    (one := QInt.one) (one' := QInt.one)
    ⟨⟨⟨Fx.holds_one hw', Fx.holds_zero x, fun h => absurd rfl h⟩, rfl, rfl⟩, (qint_ring_ops cfg D u u hu hu).2.2.2.2.2⟩
    (b := u) (b' := u) ⟨⟨⟨ha, hb, hu.discr⟩, rfl, rfl⟩, hu⟩ e
  obtain ⟨t', k1, -, k2⟩ := qint_pow cfg D u hu e
  rw [h2] at k1
  cases k1
  exact ⟨z, t, h1, h2, k2, (Fx.md_iff _ _).1 h3.a, (Fx.md_iff _ _).1 h3.b, fun h => Fx.md_inj hw' h3.ring.a h h3.a,
    fun h => Fx.md_inj hw' h3.ring.b h h3.b⟩

/-- `(1 + √2)^10 = 3363 + 2378√2` overflows `i8`: a panic with checks, the coefficients modulo `2^8` without -/
example : (Fx.mk 8 false).Discr ⟨false, true⟩ 2 ∧
    powRun QInt.one ((Fx.mk 8 true).qMul ⟨false, true⟩) ⟨1, 1, 2⟩ 10 = .error .overflow ∧
    powRun QInt.one ((Fx.mk 8 false).qMul ⟨false, true⟩) ⟨1, 1, 2⟩ 10 = .ok ⟨35, 74, 2⟩ ∧
    powRun QInt.one (QInt.mul ⟨false, true⟩) ⟨1, 1, 2⟩ 10 = .ok ⟨3363, 2378, 2⟩ :=
  ⟨⟨⟨by decide, by decide⟩, by decide, by decide +kernel, fun _ => by decide⟩, by decide +kernel, by decide +kernel, by decide +kernel⟩

end NumIrr
