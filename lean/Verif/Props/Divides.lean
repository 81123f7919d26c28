/-
C144: testing divisibility of Gaussian and quadratic integers.
-/
import Verif.Props.QIntLaws

namespace NumIrr

/-- **C144** Gaussian integers: `y` divides `x` exactly if `x % y` is zero, and `x / y` is then the quotient. -/
theorem gint_divides_iff (x y : GInt) (hy : y ≠ ⟨0, 0⟩) :
    ((∃ q : GInt, q.mul y = .ok x) ↔ x.rem y = .ok ⟨0, 0⟩) ∧ ∀ q : GInt, q.mul y = .ok x → x.div y = .ok q := by
  have hv : y.valC ≠ 0 := fun h => hy (gint_valC_inj y ⟨0, 0⟩ (by rw [h]; simp [GInt.valC]))
  have key : ∀ q : GInt, q.mul y = .ok x → x.div y = .ok q ∧ x.rem y = .ok ⟨0, 0⟩ := fun q h => by
    obtain ⟨z, e1, e2, e3⟩ := gint_mul_div q y hv
    rw [h] at e1
    cases e1
    exact ⟨e2, e3⟩
  refine ⟨⟨fun ⟨q, h⟩ => (key q h).2, fun h => ?_⟩, fun q h => (key q h).1⟩
  obtain ⟨q, r, -, e2, e3, -⟩ := gint_euclid x y hv
  rw [h] at e2
  cases e2
  obtain ⟨m, h1, h2⟩ := (gint_ring_ops q y).2.2.1
  refine ⟨q, ?_⟩
  rw [h1, gint_valC_inj m x]
  rw [h2, e3]
  simp [GInt.valC]

example : GInt.rem ⟨5, 0⟩ ⟨2, 1⟩ = .ok ⟨0, 0⟩ ∧ GInt.div ⟨5, 0⟩ ⟨2, 1⟩ = .ok ⟨2, -1⟩ ∧
    GInt.rem ⟨5, 0⟩ ⟨3, 0⟩ = .ok ⟨-1, 0⟩ := by decide +kernel

/-- **C144** Quadratic integers of one ring: `y` divides `x` exactly if `(x / y) * y` gives `x` back, and `x / y` is then the
quotient.  This works for all operands. -/
theorem qint_divides_iff (cfg : Cfg) (D : ℤ) (x y : QInt) (hy : y.InRing cfg D) (hy0 : y.valC ≠ 0) :
    ((∃ q : QInt, q.InRing cfg D ∧ QInt.mul cfg q y = .ok x) ↔
      ∃ q, QInt.div cfg x y = .ok q ∧ q.InRing cfg D ∧ QInt.mul cfg q y = .ok x) ∧
    ∀ q : QInt, q.InRing cfg D → QInt.mul cfg q y = .ok x → QInt.div cfg x y = .ok q := by
  have key : ∀ q : QInt, q.InRing cfg D → QInt.mul cfg q y = .ok x → QInt.div cfg x y = .ok q := fun q hq h => by
    obtain ⟨z, e1, e2⟩ := qint_mul_div cfg D q y hq hy hy0
    rw [h] at e1
    cases e1
    exact e2
  exact ⟨⟨fun ⟨q, hq, h⟩ => ⟨q, key q hq h, hq, h⟩, fun ⟨q, _, hq, h⟩ => ⟨q, hq, h⟩⟩, key⟩

example : QInt.div ⟨false, true⟩ ⟨1, 3, 2⟩ ⟨3, 1, 2⟩ = .ok ⟨0, 1, 2⟩ ∧
    QInt.mul ⟨false, true⟩ ⟨0, 1, 2⟩ ⟨3, 1, 2⟩ = .ok ⟨2, 3, 2⟩ ∧
    QInt.div ⟨false, true⟩ ⟨2, 3, 2⟩ ⟨3, 1, 2⟩ = .ok ⟨0, 1, 2⟩ := by decide +kernel

open QInt in
private theorem div_inRing {cfg : Cfg} {D : ℤ} {x y q : QInt} (hx : x.InRing cfg D) (hy : y.InRing cfg D) (hxb : x.b ≠ 0)
    (hyb : y.b ≠ 0) (h : QInt.div cfg x y = .ok q) : q.InRing cfg D := by
  have hd : x.d = y.d := (hx.discr hxb).trans (hy.discr hyb).symm
  have hd0 : y.d ≠ 0 := fun e => hyb (hy.ok.rational e)
  have hp : reduceBinOpUnwrap cfg x y = .ok (x, y) := by
    unfold reduceBinOpUnwrap reduceBinOp
    simp [hd, hd0, bind, Except.bind, pure, Except.pure]
  unfold QInt.div at h
  rw [if_neg (by rwa [isRational_iff]), if_neg (by rwa [isRational_iff]), hp] at h
  obtain ⟨c, -, h⟩ := bind_ok (m := x.coeffs.div y.coeffs x.d) h
  suffices hh : q.Stored ∧ (q.b ≠ 0 → q.d = y.d) from ⟨fromCoeffs_ok h, hh.1, fun k => (hh.2 k).trans (hy.discr hyb)⟩
  rw [fromCoeffs_eq hy.ok.real (hy.ok.mod4 hd0) (hy.ok.irrational hd0)] at h
  have h := Except.ok.inj h
  subst h
  unfold QInt.Stored
  split
  · exact ⟨fun _ => rfl, fun h => absurd rfl h⟩
  · next hb => exact ⟨fun h => absurd h hb, fun _ => rfl⟩

/-- **C144** partial: with irrational operands the remainder tells it too.
Missing from the full claim: rational operands, for which `%` is wrong (`qint_divides_refuted`). -/
theorem qint_divides_rem_partial (cfg : Cfg) (D : ℤ) (x y : QInt) (hx : x.InRing cfg D) (hy : y.InRing cfg D)
    (hxi : ∀ q : ℚ, x.valC ≠ q) (hyi : ∀ q : ℚ, y.valC ≠ q) :
    ∃ r, QInt.rem cfg x y = .ok r ∧
      ((∃ q : QInt, q.InRing cfg D ∧ QInt.mul cfg q y = .ok x) ↔ r.valC = 0) := by
  have hxb : x.b ≠ 0 := fun h => hxi x.a (by rw [QInt.valC_rational h]; simp)
  have hyb : y.b ≠ 0 := fun h => hyi y.a (by rw [QInt.valC_rational h]; simp)
  have hc : x.Compatible y := ⟨1, .inl (by rw [hx.discr hxb, hy.discr hyb]; ring)⟩
  have hy0 : y.valC ≠ 0 := by simpa using hyi 0
  obtain ⟨q, r, h1, h2, h3⟩ := qint_rem_partial cfg x y hx.ok hy.ok hxi hyi hc
  refine ⟨r, h2, fun ⟨q', hq', h⟩ => ?_, fun h => ?_⟩
  · have e := (qint_divides_iff cfg D x y hy hy0).2 q' hq' h
    rw [h1] at e
    cases e
    rw [qint_mul_value cfg q y x hq'.ok hy.ok h] at h3
    linear_combination -h3
  · have hq : q.InRing cfg D := div_inRing hx hy hxb hyb h1
    obtain ⟨z, e1, e2, e3⟩ := (qint_ring_ops cfg D q y hq hy).2.2.1
    refine ⟨q, hq, ?_⟩
    rw [e1, QInt.inRing_inj e2 hx]
    rw [e3, h3, h, add_zero]

/-- **C144** is false for `%` with rational operands: `3` divides `6`, but `6 % 3` is `2`, and `6 % √2` panics. -/
theorem qint_divides_refuted : QInt.new ⟨false, true⟩ 6 0 2 = .ok ⟨6, 0, 0⟩ ∧ QInt.new ⟨false, true⟩ 3 0 2 = .ok ⟨3, 0, 0⟩ ∧
    QInt.mul ⟨false, true⟩ ⟨2, 0, 0⟩ ⟨3, 0, 0⟩ = .ok ⟨6, 0, 0⟩ ∧ QInt.rem ⟨false, true⟩ ⟨6, 0, 0⟩ ⟨3, 0, 0⟩ = .ok ⟨2, 0, 0⟩ ∧
    QInt.mul ⟨false, true⟩ ⟨0, 3, 2⟩ ⟨0, 1, 2⟩ = .ok ⟨6, 0, 0⟩ ∧
    QInt.rem ⟨false, true⟩ ⟨6, 0, 0⟩ ⟨0, 1, 2⟩ = .error .debugAssert := by decide +kernel

end NumIrr
