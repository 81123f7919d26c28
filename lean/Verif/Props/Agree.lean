/-
C128: calculations with surds and with quadratic integers agree.
-/
import Verif.Spec.Agree
import Verif.Props.QFormula
import Verif.Props.Formula

namespace NumIrr
namespace QFormula
open Surd (reduce reduceSquare reduceRat reduceIrr reduceFactor reduceSign)

/-- the reduced surd `p + q√r` -/
private def canon (r p q : ℤ) : Surd := if q = 0 then ⟨p, 0, 1, 0⟩ else ⟨p, q, 1, r⟩

private theorem igcd_one (a : ℤ) : igcd a 1 = 1 := by simp [igcd]
private theorem igcd_one' (a : ℤ) : igcd 1 a = 1 := by simp [igcd]

private theorem isqrt_one : isqrt 1 = 1 := by decide

private theorem reduce_one {r : ℤ} (hs : ¬ IsSquare r) (p q : ℤ) : reduce ⟨p, q, 1, r⟩ = .ok (canon r p q) := by
  have h0 : r ≠ 0 := fun e => hs (e ▸ ⟨0, rfl⟩)
  have h1 : ¬ (isqrt (r.natAbs : ℤ) * isqrt (r.natAbs : ℤ) = r) := fun h => hs ((isqrt_natAbs_iff r).1 h)
  have e1 : reduceSquare ⟨p, q, 1, r⟩ = ⟨p, q, 1, r⟩ := by
    unfold reduceSquare; simp only [if_neg h1]
  unfold reduce canon
  rw [if_neg (by simp)]
  simp only [e1]
  by_cases hq : q = 0
  · simp [hq, reduceRat, reduceSign, igcd_one]
  · simp [hq, h0, reduceIrr, reduceFactor, reduceSign, igcd_one, igcd_one', isqrt_one]

private theorem reduce_rat (p q : ℤ) : reduce ⟨p, q, 1, 0⟩ = .ok ⟨p, 0, 1, 0⟩ := by
  simp [reduce, reduceSquare, reduceRat, reduceSign, igcd_one, isqrt]

private theorem reduce_unit (p q : ℤ) : reduce ⟨p, q, 1, 1⟩ = .ok ⟨p + q, 0, 1, 0⟩ := by
  simp [reduce, reduceSquare, reduceRat, reduceSign, igcd_one, isqrt_one]

private theorem fc {cfg : Cfg} {r : ℤ} (hc : cfg.complex = false → 0 ≤ r) (hs : ¬ IsSquare r) (p q : ℤ) :
    Surd.fromCoeffs cfg ⟨p, q, 1⟩ r = .ok (canon r p q) := by
  unfold Surd.fromCoeffs
  rw [if_neg (fun h => not_lt.2 (hc h.1) h.2)]
  exact reduce_one hs p q

private theorem fc0 {cfg : Cfg} (r p q : ℤ) : Surd.fromCoeffs cfg ⟨p, q, 1⟩ 0 = .ok (canon r p 0) := by
  unfold Surd.fromCoeffs canon
  rw [if_neg (by simp), if_pos rfl]
  exact reduce_rat p q

private theorem ratio_one (p : ℤ) : ratioNew p 1 = .ok (p : ℚ) := by
  simp [ratioNew]

private theorem rat_canon {r p q : ℤ} (h0 : r ≠ 0) : (canon r p q).isRational = true ↔ q = 0 := by
  unfold canon Surd.isRational
  split
  · next h => simp [h]
  · next h => simp [h, h0]

section ops
variable {cfg : Cfg} {r : ℤ} (hc : cfg.complex = false → 0 ≤ r) (hs : ¬ IsSquare r)
include hc hs

private theorem fcR (p q : ℤ) (s : Surd) (h : s.r = r ∨ (s.r = 0 ∧ q = 0)) :
    Surd.fromCoeffs cfg ⟨p, q, 1⟩ s.r = .ok (canon r p q) := by
  rcases h with h | ⟨h, rfl⟩
  · rw [h]; exact fc hc hs p q
  · rw [h]; exact fc0 r p 0

private theorem addRat_canon (p q k : ℤ) : Surd.addRat cfg (canon r p q) k = .ok (canon r (p + k) q) := by
  unfold Surd.addRat
  by_cases hq : q = 0
  · subst hq
    simpa [canon, Surd.coeffs, Coeffs.addRat] using fc0 (cfg := cfg) r (p + k) 0
  · have := fc hc hs (p + k) q
    simpa [canon, hq, Surd.coeffs, Coeffs.addRat] using this

private theorem subRat_canon (p q k : ℤ) : Surd.subRat cfg (canon r p q) k = .ok (canon r (p - k) q) := by
  unfold Surd.subRat
  by_cases hq : q = 0
  · subst hq
    simpa [canon, Surd.coeffs, Coeffs.subRat] using fc0 (cfg := cfg) r (p - k) 0
  · have := fc hc hs (p - k) q
    simpa [canon, hq, Surd.coeffs, Coeffs.subRat] using this

private theorem mulRat_canon (p q k : ℤ) : Surd.mulRat cfg (canon r p q) k = .ok (canon r (p * k) (q * k)) := by
  unfold Surd.mulRat
  by_cases hq : q = 0
  · subst hq
    simpa [canon, Surd.coeffs, Coeffs.mulRat] using fc0 (cfg := cfg) r (p * k) 0
  · have := fc hc hs (p * k) (q * k)
    simpa [canon, hq, Surd.coeffs, Coeffs.mulRat] using this

private theorem canon_neg (p q : ℤ) : (canon r p q).neg = canon r (-p) (-q) := by
  unfold canon Surd.neg
  by_cases hq : q = 0 <;> simp [hq]

private theorem canon_conj (p q : ℤ) : (canon r p q).conj = canon r p (-q) := by
  unfold canon Surd.conj
  by_cases hq : q = 0 <;> simp [hq, Surd.coeffs, Coeffs.conj]

private theorem canon_irr {p q : ℤ} (hq : q ≠ 0) : canon r p q = ⟨p, q, 1, r⟩ := by unfold canon; rw [if_neg hq]

private theorem ratio_canon (p : ℤ) : ratioNew (canon r p 0).a (canon r p 0).c = .ok (p : ℚ) := by
  simp [canon, ratio_one]

private theorem add_canon (p q p' q' : ℤ) :
    Surd.add cfg (canon r p q) (canon r p' q') = .ok (canon r (p + p') (q + q')) := by
  have h0 : r ≠ 0 := fun e => hs (e ▸ ⟨0, rfl⟩)
  unfold Surd.add
  by_cases h1 : q' = 0
  · subst h1
    rw [if_pos ((rat_canon h0).2 rfl), ratio_canon hc hs, Surd.ok_bind, addRat_canon hc hs, add_zero]
  rw [if_neg (fun h => h1 ((rat_canon h0).1 h))]
  by_cases h2 : q = 0
  · subst h2
    rw [if_pos ((rat_canon h0).2 rfl), ratio_canon hc hs, Surd.ok_bind, addRat_canon hc hs, zero_add, add_comm]
  rw [if_neg (fun h => h2 ((rat_canon h0).1 h)), canon_irr hc hs h1, canon_irr hc hs h2,
    Surd.reduceBinOpUnwrap_sameRoot (x := ⟨p, q, 1, r⟩) (y := ⟨p', q', 1, r⟩) rfl h0, Surd.ok_bind]
  exact fc hc hs _ _

private theorem sub_canon (p q p' q' : ℤ) :
    Surd.sub cfg (canon r p q) (canon r p' q') = .ok (canon r (p - p') (q - q')) := by
  have h0 : r ≠ 0 := fun e => hs (e ▸ ⟨0, rfl⟩)
  unfold Surd.sub
  by_cases h1 : q' = 0
  · subst h1
    rw [if_pos ((rat_canon h0).2 rfl), ratio_canon hc hs, Surd.ok_bind, subRat_canon hc hs, sub_zero]
  rw [if_neg (fun h => h1 ((rat_canon h0).1 h))]
  by_cases h2 : q = 0
  · subst h2
    rw [if_pos ((rat_canon h0).2 rfl), ratio_canon hc hs, Surd.ok_bind, subRat_canon hc hs, Surd.ok_bind,
      canon_neg hc hs, neg_sub, zero_sub]; rfl
  rw [if_neg (fun h => h2 ((rat_canon h0).1 h)), canon_irr hc hs h1, canon_irr hc hs h2,
    Surd.reduceBinOpUnwrap_sameRoot (x := ⟨p, q, 1, r⟩) (y := ⟨p', q', 1, r⟩) rfl h0, Surd.ok_bind]
  exact fc hc hs _ _

private theorem mul_canon (p q p' q' : ℤ) (hp : 0 < r ∨ ¬ ((p = 0 ∧ q ≠ 0) ∧ (p' = 0 ∧ q' ≠ 0))) :
    Surd.mul cfg (canon r p q) (canon r p' q') = .ok (canon r (p * p' + q * q' * r) (p * q' + q * p')) := by
  have h0 : r ≠ 0 := fun e => hs (e ▸ ⟨0, rfl⟩)
  unfold Surd.mul
  by_cases h1 : q' = 0
  · subst h1
    rw [if_pos ((rat_canon h0).2 rfl), ratio_canon hc hs, Surd.ok_bind, mulRat_canon hc hs]
    congr 2 <;> ring
  rw [if_neg (fun h => h1 ((rat_canon h0).1 h))]
  by_cases h2 : q = 0
  · subst h2
    rw [if_pos ((rat_canon h0).2 rfl), ratio_canon hc hs, Surd.ok_bind, mulRat_canon hc hs]
    congr 2 <;> ring
  rw [if_neg (fun h => h2 ((rat_canon h0).1 h)), canon_irr hc hs h1, canon_irr hc hs h2]
  split
  · next h =>
    have h' : p = 0 ∧ p' = 0 := by
      simp only [Surd.isPure, Bool.and_eq_true, decide_eq_true_eq] at h
      exact ⟨h.1.1, h.2.1⟩
    obtain ⟨rfl, rfl⟩ := h'
    have hr : 0 < r := by
      rcases hp with hp | hp
      · exact hp
      · exact absurd ⟨⟨rfl, h2⟩, ⟨rfl, h1⟩⟩ hp
    have e : igcd r r = r := by unfold igcd; rw [Int.gcd_self]; exact Int.natAbs_of_nonneg hr.le
    simp only [e, Int.tdiv_self h0, mul_one]
    unfold Surd.new
    rw [if_neg (by simp), reduce_unit]
    simp [canon]
  · rw [Surd.reduceBinOpUnwrap_sameRoot (x := ⟨p, q, 1, r⟩) (y := ⟨p', q', 1, r⟩) rfl h0, Surd.ok_bind]
    exact fc hc hs _ _

end ops

private theorem multiple_coords {r p q : ℤ} (hs : ¬ IsSquare r) {f : QFormula}
    (h : ∀ ρ : ℂ, ρ * ρ = r → f.val ρ = p + q * ρ) : f.Multiple r ↔ p = 0 ∧ q ≠ 0 := by
  have e1 := h (rootC r) (rootC_mul_self r)
  have e2 := h (-rootC r) (by rw [neg_mul_neg, rootC_mul_self])
  have h0 : rootC r ≠ 0 := rootC_ne_zero fun e => hs (e ▸ ⟨0, rfl⟩)
  unfold Multiple
  rw [e1, e2]
  constructor
  · rintro ⟨a, b⟩
    have hp : (p : ℂ) = 0 := by linear_combination b / 2
    have hp' : p = 0 := by exact_mod_cast hp
    refine ⟨hp', ?_⟩
    rintro rfl
    apply a; rw [hp]; simp
  · rintro ⟨rfl, hq⟩
    constructor
    · simp [hq, h0]
    · push_cast; ring

private theorem run_canon {cfg : Cfg} {r : ℤ} (hc : cfg.complex = false → 0 ≤ r) (hs : ¬ IsSquare r) (f : QFormula)
    (hp : 0 < r ∨ f.NoPure r) :
    ∃ p q, f.runSurd cfg r = .ok (canon r p q) ∧ ∀ ρ : ℂ, ρ * ρ = r → f.val ρ = p + q * ρ := by
  induction f with
  | lit a b => exact ⟨a, b, fc hc hs a b, fun ρ _ => rfl⟩
  | neg f ih =>
    obtain ⟨p, q, h1, h2⟩ := ih hp
    refine ⟨-p, -q, ?_, fun ρ e => by simp only [val, h2 ρ e]; push_cast; ring⟩
    simp only [runSurd, h1, Surd.ok_bind, canon_neg hc hs]; rfl
  | conj f ih =>
    obtain ⟨p, q, h1, h2⟩ := ih hp
    refine ⟨p, -q, ?_, fun ρ e => by simp only [val, h2 (-ρ) (by rw [neg_mul_neg, e])]; push_cast; ring⟩
    simp only [runSurd, h1, Surd.ok_bind, canon_conj hc hs]; rfl
  | add f g ihf ihg =>
    obtain ⟨p, q, h1, h2⟩ := ihf (hp.imp id fun h => h.1)
    obtain ⟨p', q', k1, k2⟩ := ihg (hp.imp id fun h => h.2)
    refine ⟨p + p', q + q', ?_, fun ρ e => by simp only [val, h2 ρ e, k2 ρ e]; push_cast; ring⟩
    simp only [runSurd, h1, k1, Surd.ok_bind, add_canon hc hs]
  | sub f g ihf ihg =>
    obtain ⟨p, q, h1, h2⟩ := ihf (hp.imp id fun h => h.1)
    obtain ⟨p', q', k1, k2⟩ := ihg (hp.imp id fun h => h.2)
    refine ⟨p - p', q - q', ?_, fun ρ e => by simp only [val, h2 ρ e, k2 ρ e]; push_cast; ring⟩
    simp only [runSurd, h1, k1, Surd.ok_bind, sub_canon hc hs]
  | mul f g ihf ihg =>
    obtain ⟨p, q, h1, h2⟩ := ihf (hp.imp id fun h => h.1)
    obtain ⟨p', q', k1, k2⟩ := ihg (hp.imp id fun h => h.2.1)
    refine ⟨p * p' + q * q' * r, p * q' + q * p', ?_, fun ρ e => by
      simp only [val, h2 ρ e, k2 ρ e]; push_cast; linear_combination (q * q' : ℂ) * e⟩
    simp only [runSurd, h1, k1, Surd.ok_bind]
    refine mul_canon hc hs p q p' q' (hp.imp id fun h => ?_)
    rw [← multiple_coords hs h2, ← multiple_coords hs k2]
    exact h.2.2

private theorem new_int {cfg : Cfg} {p r : ℤ} {t : QInt} (hr : 0 < r ∨ r % 4 ≠ 0) (h : QInt.new cfg p 0 r = .ok t) :
    t = ⟨p, 0, 0⟩ := by
  obtain ⟨k, m, -, -, -, e⟩ := QInt.new_eq cfg p 0 r hr
  rw [h] at e
  have e' : QInt.fromCoeffs cfg ⟨p, 0⟩ m = .ok t := by
    rw [e]; congr 1; split <;> simp
  unfold QInt.fromCoeffs at e'
  split at e'
  · cases e'
  split at e'
  · cases e'
  · have : ∀ b : Prop, [Decidable b] → ∀ d' : Prop, [Decidable d'] → ∀ u v : ℤ,
        (if b then (if d' then (p, 0 * u, -1) else (p + 0 * u, 0, 0)) else (p, 0, v) : ℤ × ℤ × ℤ).1 = p ∧
        (if b then (if d' then (p, 0 * u, -1) else (p + 0 * u, 0, 0)) else (p, 0, v) : ℤ × ℤ × ℤ).2.1 = 0 := by
      intro b _ d' _ u v
      split <;> [split; skip] <;> simp
    simp only [this, true_or, if_true] at e'
    cases e'; rfl

/-- **C128** partial: with surds a calculation in sums, differences, products and conjugates of numbers `a + b√r`
returns the number its formula denotes, with denominator 1 and the root written in it, or none if the number is an
integer.  Here `r` is no square, and positive unless no product in the formula is one of two multiples of `√r`.
Missing from the full claim: `agree_refuted`. -/
theorem surd_integral_partial (cfg : Cfg) (r : ℤ) (hc : cfg.complex = false → 0 ≤ r) (hs : ¬ IsSquare r) (f : QFormula)
    (hp : 0 < r ∨ f.NoPure r) :
    ∃ s, f.runSurd cfg r = .ok s ∧ s.valC = f.val (rootC r) ∧ s.c = 1 ∧ (s.r = r ∧ s.b ≠ 0 ∨ s.r = 0 ∧ s.b = 0) := by
  obtain ⟨p, q, h1, h2⟩ := run_canon hc hs f hp
  refine ⟨_, h1, ?_, ?_, ?_⟩
  · rw [h2 _ (rootC_mul_self r)]
    unfold canon
    split
    · next h => simp [h, Surd.valC, quadC]
    · simp [Surd.valC, quadC]
  · unfold canon; split <;> rfl
  · unfold canon
    split
    · exact .inr ⟨rfl, rfl⟩
    · next h => exact .inl ⟨rfl, h⟩

/-- **C128** partial: calculated with surds and with quadratic integers a formula gives the same number; the surd
converts exactly into the quadratic integer, unless it is an integer, when the conversion panics. -/
theorem agree_partial (cfg : Cfg) (r : ℤ) (hs : ¬ IsSquare r)
    (hr : 0 < r ∨ (cfg.complex = true ∧ r < 0 ∧ r % 4 ≠ 0)) (f : QFormula) (hp : 0 < r ∨ f.NoPure r) :
    ∃ s q, f.runSurd cfg r = .ok s ∧ f.run cfg r = .ok q ∧ s.valC = q.valC ∧
      (s.r ≠ 0 → s.toQuadint cfg = .ok (.exact q)) ∧
      (s.r = 0 → s.toQuadint cfg = .error .unreachable ∧ q = ⟨s.a, 0, 0⟩) := by
  have hc : cfg.complex = false → 0 ≤ r := by
    rintro h
    rcases hr with hr | hr
    · exact hr.le
    · rw [h] at hr; simp at hr
  obtain ⟨p, q, h1, h2⟩ := run_canon hc hs f hp
  obtain ⟨t, k1, k2⟩ := qformula_partial cfg r hs hr f
  have h3 := h2 _ (rootC_mul_self r)
  have h4 : f.run cfg r = (lit p q).run cfg r := (qformula_same_partial cfg r hs hr f (lit p q)).2 h3
  have h5 : QInt.new cfg p q r = .ok t := by rw [← k1, h4]; rfl
  refine ⟨_, t, h1, k1, ?_, ?_, ?_⟩
  · rw [k2, h3]
    unfold canon
    split
    · next h => simp [h, Surd.valC, quadC]
    · simp [Surd.valC, quadC]
  · intro h
    have hq : q ≠ 0 := by
      rintro rfl
      exact h rfl
    rw [canon_irr hc hs hq]
    unfold Surd.toQuadint
    simp only [Surd.isQuadint, decide_true, if_true, h5]
    rfl
  · intro h
    have hq : q = 0 := by
      by_contra hq
      rw [canon_irr hc hs hq] at h
      have h' : r = 0 := h
      exact hs (h' ▸ ⟨0, rfl⟩)
    subst hq
    constructor
    · rfl
    · exact new_int (by rcases hr with hr | hr; exact .inl hr; exact .inr hr.2.2) h5

/-- a positive and a negative root, an integer result -/
example : sample.runSurd ⟨false, true⟩ 20 = .ok ⟨-19, -3, 1, 20⟩ ∧ sample.runSurd ⟨true, true⟩ (-6) = .ok ⟨7, -3, 1, -6⟩ ∧
    sample.run ⟨true, true⟩ (-6) = .ok ⟨7, -3, -6⟩ ∧ (mul (lit 1 1) (lit 1 (-1))).runSurd ⟨false, true⟩ 8 = .ok ⟨-7, 0, 1, 0⟩ := by
  decide +kernel
/-- the hypothesis on products holds of `(1 + √-6)(1 - √-6) - 3√-6` -/
example : ¬ IsSquare (-6 : ℤ) ∧ sample.NoPure (-6) := by
  refine ⟨by decide +kernel, ⟨trivial, trivial, ?_⟩, trivial⟩
  rintro ⟨⟨-, h⟩, -⟩
  simp only [val] at h
  have : (2 : ℂ) = 0 := by push_cast at h; linear_combination h
  norm_num at this

/-- **C128** refuted: for negative `r` the square of `√r` is `-r` with surds, and `r` with quadratic integers. -/
theorem agree_refuted (d : Bool) (r : ℤ) (h : r < 0) (h4 : r % 4 ≠ 0) :
    (mul (lit 0 1) (lit 0 1)).runSurd ⟨true, d⟩ r = .ok ⟨-r, 0, 1, 0⟩ ∧
    (mul (lit 0 1) (lit 0 1)).run ⟨true, d⟩ r = .ok ⟨r, 0, 0⟩ := by
  have hs : ¬ IsSquare r := fun ⟨k, e⟩ => by nlinarith [mul_self_nonneg k]
  have h0 : r ≠ 0 := h.ne
  have hc : (⟨true, d⟩ : Cfg).complex = false → 0 ≤ r := by simp
  constructor
  · have e1 : (lit 0 1).runSurd ⟨true, d⟩ r = .ok ⟨0, 1, 1, r⟩ := fc hc hs 0 1
    simp only [runSurd] at e1 ⊢
    rw [e1, Surd.ok_bind, Surd.ok_bind]
    have e : igcd r r = -r := by unfold igcd; rw [Int.gcd_self]; exact Int.ofNat_natAbs_of_nonpos h.le
    unfold Surd.mul
    simp only [Surd.isRational, Surd.isPure, h0, e, Int.tdiv_neg, Int.tdiv_self h0]
    simp only [Surd.new]
    have := reduce_unit 0 (-r)
    simpa using this
  · obtain ⟨t, k1, k2⟩ := qformula_partial ⟨true, d⟩ r hs (.inr ⟨rfl, h, h4⟩) (mul (lit 0 1) (lit 0 1))
    have e := (qformula_same_partial ⟨true, d⟩ r hs (.inr ⟨rfl, h, h4⟩) (mul (lit 0 1) (lit 0 1)) (lit r 0)).2
      (by simp [val, rootC_mul_self])
    have e' : QInt.new ⟨true, d⟩ r 0 r = .ok t := by rw [← k1, e]; rfl
    rw [k1, new_int (.inr h4) e']

/-- **C128** partial: two formulas have the same result with surds iff they have with quadratic integers. -/
theorem agree_same_partial (cfg : Cfg) (r : ℤ) (hs : ¬ IsSquare r)
    (hr : 0 < r ∨ (cfg.complex = true ∧ r < 0 ∧ r % 4 ≠ 0)) (f g : QFormula) (hf : 0 < r ∨ f.NoPure r)
    (hg : 0 < r ∨ g.NoPure r) : f.runSurd cfg r = g.runSurd cfg r ↔ f.run cfg r = g.run cfg r := by
  have hc : cfg.complex = false → 0 ≤ r := by
    rintro h
    rcases hr with hr | hr
    · exact hr.le
    · rw [h] at hr; simp at hr
  rw [qformula_same_partial cfg r hs hr]
  obtain ⟨s, a1, a2, -, -⟩ := surd_integral_partial cfg r hc hs f hf
  obtain ⟨t, b1, b2, -, -⟩ := surd_integral_partial cfg r hc hs g hg
  obtain ⟨p, q, h1, h2⟩ := run_canon hc hs f hf
  obtain ⟨p', q', k1, k2⟩ := run_canon hc hs g hg
  constructor
  · intro h
    rw [a1, b1] at h
    cases h
    rw [← a2, ← b2]
  · intro h
    rw [h2 _ (rootC_mul_self r), k2 _ (rootC_mul_self r)] at h
    have := root_lin_indep hs (x := (p - p' : ℤ)) (y := (q - q' : ℤ)) (by push_cast; linear_combination h)
    have e1 : p = p' := by have := this.1; norm_cast at this; omega
    have e2 : q = q' := by have := this.2; norm_cast at this; omega
    rw [h1, k1, e1, e2]
example : (mul (lit 1 1) (lit 1 (-1))).runSurd ⟨false, true⟩ 8 = (sub (lit 1 0) (mul (lit 0 1) (lit 0 1))).runSurd ⟨false, true⟩ 8 := by
  decide +kernel

private theorem rootC_neg_one : rootC (-1) = Complex.I := by simp [rootC]

/-- **C128** partial: with `r = -1` the surd of a calculation converts exactly into its Gaussian integer, also when it is
an integer. -/
theorem agree_gauss_partial (d : Bool) (f : QFormula) (hp : f.NoPure (-1)) :
    ∃ s g, f.runSurd ⟨true, d⟩ (-1) = .ok s ∧ f.runG = .ok g ∧ s.valC = g.valC ∧ s.toGaussint ⟨true, d⟩ = .ok (.exact g) := by
  have hs : ¬ IsSquare (-1 : ℤ) := by decide +kernel
  obtain ⟨p, q, h1, h2⟩ := run_canon (cfg := ⟨true, d⟩) (by simp) hs f (.inr hp)
  have h3 : f.val Complex.I = (lit p q).val Complex.I := h2 _ (by rw [Complex.I_mul_I]; norm_num)
  have h4 : f.runG = .ok ⟨p, q⟩ := (gformula f (lit p q)).2.2 h3
  refine ⟨_, _, h1, h4, ?_, ?_⟩
  · unfold canon
    split
    · next h => simp [h, Surd.valC, quadC, GInt.valC]
    · simp [Surd.valC, quadC, GInt.valC, rootC_neg_one]
  · unfold canon
    split
    · next h => simp [h, Surd.toGaussint, Surd.isGaussint]
    · simp [Surd.toGaussint, Surd.isGaussint]
example : sample.NoPure (-1) ∧ sample.runSurd ⟨true, true⟩ (-1) = .ok ⟨2, -3, 1, -1⟩ ∧ sample.runG = .ok ⟨2, -3⟩ := by
  refine ⟨⟨⟨trivial, trivial, ?_⟩, trivial⟩, by decide +kernel, by decide +kernel⟩
  rintro ⟨⟨-, h⟩, -⟩
  simp only [val] at h
  have : (2 : ℂ) = 0 := by push_cast at h; linear_combination h
  norm_num at this

private theorem bind_ref {α β : Type} {r a : Res α} {f g : α → Res β} (h : Refines r a) (k : ∀ v, Refines (f v) (g v)) :
    Refines (r >>= f) (a >>= g) := by
  rcases h with h | h
  · rw [h]
    cases a with
    | ok v => exact k v
    | error e => exact .inl rfl
  · rw [h]; exact .inr rfl

/-- **C128** Over primitive integers with overflow checks the calculation with surds does what it does with arbitrary
precision, or panics with an overflow; for any root. -/
theorem runSurd_fixed (x : Fx) (hc : x.checks = true) (cfg : Cfg) (r : ℤ) (f : QFormula) :
    Refines (f.runSurdFx x cfg r) (f.runSurd cfg r) := by
  induction f with
  | lit a b => exact Fx.surdNew_ref hc cfg a b 1 r
  | neg f ih => exact bind_ref ih fun v => Fx.surdNeg_ref hc v
  | conj f ih => exact bind_ref ih fun v => Fx.conj_ref hc v
  | add f g ihf ihg => exact bind_ref ihf fun u => bind_ref ihg fun v => Fx.surdAdd_ref hc cfg u v
  | sub f g ihf ihg => exact bind_ref ihf fun u => bind_ref ihg fun v => Fx.surdSub_ref hc cfg u v
  | mul f g ihf ihg => exact bind_ref ihf fun u => bind_ref ihg fun v => Fx.surdMul_ref hc cfg u v

/-- **C128** partial: so over primitive integers, when both calculations return, they return the same number, and where
the conversion of the surd returns it returns the quadratic integer. -/
theorem agree_fixed_partial (x : Fx) (hx : x.checks = true) (cfg : Cfg) (r : ℤ) (hs : ¬ IsSquare r)
    (hr : 0 < r ∨ (cfg.complex = true ∧ r < 0 ∧ r % 4 ≠ 0)) (f : QFormula) (hp : 0 < r ∨ f.NoPure r) (s : Surd) (q : QInt)
    (h1 : f.runSurdFx x cfg r = .ok s) (h2 : f.runFx x cfg r = .ok q) :
    s.valC = q.valC ∧ s.c = 1 ∧ ∀ v, x.toQuadint cfg s = .ok v → v = .exact q := by
  have e1 := (runSurd_fixed x hx cfg r f).returns h1
  have e2 := (qformula_fixed x hx cfg r f).returns h2
  obtain ⟨s', q', a1, a2, a3, a4, a5⟩ := agree_partial cfg r hs hr f hp
  rw [e1] at a1; rw [e2] at a2
  cases a1; cases a2
  have hc : cfg.complex = false → 0 ≤ r := by
    rintro h
    rcases hr with hr | hr
    · exact hr.le
    · rw [h] at hr; simp at hr
  obtain ⟨t, b1, -, b2, -⟩ := surd_integral_partial cfg r hc hs f hp
  rw [e1] at b1; cases b1
  refine ⟨a3, b2, fun v hv => ?_⟩
  have e3 := (Fx.toQuadint_ref hx cfg s).returns hv
  by_cases h0 : s.r = 0
  · rw [(a5 h0).1] at e3; cases e3
  · rw [a4 h0] at e3; cases e3; rfl
example : sample.runSurdFx ⟨16, true⟩ ⟨false, true⟩ 20 = .ok ⟨-19, -3, 1, 20⟩ ∧
    sample.runFx ⟨16, true⟩ ⟨false, true⟩ 20 = .ok ⟨-13, -12, 5⟩ ∧
    (⟨16, true⟩ : Fx).toQuadint ⟨false, true⟩ ⟨-19, -3, 1, 20⟩ = .ok (.exact ⟨-13, -12, 5⟩) := by decide +kernel

end QFormula
end NumIrr
