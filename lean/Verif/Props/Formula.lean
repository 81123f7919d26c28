/-
C122: whole calculations with surds.
-/
import Verif.Lemmas.Formula
import Verif.Props.SurdEq

namespace NumIrr
namespace Formula
open Fx
open Surd (ok_bind)

private theorem bind_ok {α β : Type} {r : Res α} {f : α → Res β} {v : β} (h : (r >>= f) = .ok v) :
    ∃ u, r = .ok u ∧ f u = .ok v := by
  cases r with
  | error e => cases h
  | ok u => exact ⟨u, rfl, h⟩

private theorem neg_real {x : Surd} (h : x.RealOk) : x.neg.RealOk ∧ x.neg.val = -x.val := by
  obtain ⟨h1, h2⟩ := surd_neg_value ⟨true, true⟩ x (h.toOk _)
  apply Surd.real_transfer h2.toNormal
  rw [h1, h.valC]; push_cast; rfl

private theorem recip_real {cfg : Cfg} {x z : Surd} (h : x.RealOk) (hz : Surd.recip cfg x = .ok z) :
    x.val ≠ 0 ∧ z.RealOk ∧ z.val = 1 / x.val := by
  have h0 : x.valC ≠ 0 := (surd_recip_returns_iff cfg x (h.toOk cfg)).1 ⟨z, hz⟩
  obtain ⟨h1, h2⟩ := surd_recip_value cfg x z (h.toOk cfg) hz
  refine ⟨fun e => h0 (by rw [h.valC, e]; simp), ?_⟩
  apply Surd.real_transfer h2.toNormal
  rw [h1, h.valC]; push_cast; rw [one_div]

/-- **C122** (values) Without complex numbers, what a calculation returns is the number its formula denotes, and only
calculations that denote a number return. -/
theorem formula_value (cfg : Cfg) (hcx : cfg.complex = false) (f : Formula) (s : Surd) (h : f.run cfg = .ok s) :
    f.Defined ∧ s.RealOk ∧ s.val = f.real := by
  induction f generalizing s with
  | lit a b c r =>
    obtain ⟨h1, h2⟩ := (surd_new_returns_iff cfg a b c r).1 ⟨s, h⟩
    have h3 : 0 ≤ r := by simpa [hcx] using h2
    obtain ⟨h4, h5⟩ := surd_new_value_real cfg a b c r s h3 h
    exact ⟨⟨h1, h3⟩, ⟨(surd_new_normal cfg a b c r s h).toNormal, h4⟩, h5⟩
  | neg f ih =>
    obtain ⟨u, h1, h2⟩ := bind_ok h
    cases h2
    obtain ⟨d, k1, k2⟩ := ih u h1
    obtain ⟨k3, k4⟩ := neg_real k1
    exact ⟨d, k3, by rw [k4, k2]; rfl⟩
  | recip f ih =>
    obtain ⟨u, h1, h2⟩ := bind_ok h
    obtain ⟨d, k1, k2⟩ := ih u h1
    obtain ⟨k0, k3, k4⟩ := recip_real k1 h2
    exact ⟨⟨d, k2 ▸ k0⟩, k3, by rw [k4, k2]; rfl⟩
  | add f g ihf ihg =>
    obtain ⟨u, h1, h⟩ := bind_ok h
    obtain ⟨v, h2, h⟩ := bind_ok h
    obtain ⟨d1, k1, k2⟩ := ihf u h1
    obtain ⟨d2, k3, k4⟩ := ihg v h2
    obtain ⟨k5, k6⟩ := surd_add_value_real cfg u v s k1 k3 h
    exact ⟨⟨d1, d2⟩, k5, by rw [k6, k2, k4]; rfl⟩
  | sub f g ihf ihg =>
    obtain ⟨u, h1, h⟩ := bind_ok h
    obtain ⟨v, h2, h⟩ := bind_ok h
    obtain ⟨d1, k1, k2⟩ := ihf u h1
    obtain ⟨d2, k3, k4⟩ := ihg v h2
    obtain ⟨k5, k6⟩ := surd_sub_value_real cfg u v s k1 k3 h
    exact ⟨⟨d1, d2⟩, k5, by rw [k6, k2, k4]; rfl⟩
  | mul f g ihf ihg =>
    obtain ⟨u, h1, h⟩ := bind_ok h
    obtain ⟨v, h2, h⟩ := bind_ok h
    obtain ⟨d1, k1, k2⟩ := ihf u h1
    obtain ⟨d2, k3, k4⟩ := ihg v h2
    obtain ⟨k5, k6⟩ := surd_mul_value_real cfg u v s k1 k3 h
    exact ⟨⟨d1, d2⟩, k5, by rw [k6, k2, k4]; rfl⟩
  | div f g ihf ihg =>
    obtain ⟨u, h1, h⟩ := bind_ok h
    obtain ⟨v, h2, h⟩ := bind_ok h
    obtain ⟨d1, k1, k2⟩ := ihf u h1
    obtain ⟨d2, k3, k4⟩ := ihg v h2
    obtain ⟨k0, k5, k6⟩ := surd_div_value_real cfg u v s k1 k3 h
    exact ⟨⟨d1, d2, k4 ▸ k0⟩, k5, by rw [k6, k2, k4]; rfl⟩

/-- `((1+√5)/2 - √45)⁻¹ * 3 / √20`, over three different roots -/
def sample : Formula :=
  .div (.mul (.recip (.sub (.lit 1 1 2 5) (.lit 0 1 1 45))) (.lit 3 0 1 0)) (.lit 0 1 1 20)

example : sample.run ⟨false, true⟩ = .ok ⟨-75, -3, 620, 5⟩ := by decide +kernel

/-- **C122** (identities) Two calculations of the same number that return give surds equal by `==`. (The converse fails,
C03: `√8 == -2√2`.) -/
theorem formula_eq (cfg : Cfg) (hcx : cfg.complex = false) (f g : Formula) (s t : Surd) (hf : f.run cfg = .ok s)
    (hg : g.run cfg = .ok t) (h : f.real = g.real) : Surd.eq s t = true := by
  obtain ⟨-, h1, h2⟩ := formula_value cfg hcx f s hf
  obtain ⟨-, h3, h4⟩ := formula_value cfg hcx g t hg
  exact surd_eq_complete cfg s t (h1.toOk cfg) (h3.toOk cfg) (by rw [h1.valC, h3.valC, h2, h4, h])

/-- `√2 + √8` and `√18` -/
example : (Formula.add (.lit 0 1 1 2) (.lit 0 1 1 8)).run ⟨false, true⟩ = .ok ⟨0, 3, 1, 2⟩ ∧
    (Formula.lit 0 1 1 18).run ⟨false, true⟩ = .ok ⟨0, 1, 1, 18⟩ ∧ Surd.eq ⟨0, 3, 1, 2⟩ ⟨0, 1, 1, 18⟩ = true := by
  decide +kernel

private theorem over_root (cfg : Cfg) {d : ℤ} (hd : Squarefree d) (f : Formula) (hf : f.Over d) (s : Surd)
    (h : f.run cfg = .ok s) : Surd.InF d s := by
  induction f generalizing s with
  | lit a b c r =>
    have : r = d := hf
    exact Surd.new_root hd (.inr (.inl this)) h
  | neg f ih =>
    obtain ⟨u, h1, h2⟩ := bind_ok h
    cases h2
    exact ih hf u h1
  | recip f ih =>
    obtain ⟨u, h1, h2⟩ := bind_ok h
    exact Surd.recip_root hd (ih hf u h1) h2
  | add f g ihf ihg =>
    obtain ⟨u, h1, h⟩ := bind_ok h
    obtain ⟨v, h2, h⟩ := bind_ok h
    exact Surd.add_root hd (ihf hf.1 u h1) (ihg hf.2 v h2) h
  | sub f g ihf ihg =>
    obtain ⟨u, h1, h⟩ := bind_ok h
    obtain ⟨v, h2, h⟩ := bind_ok h
    exact Surd.sub_root hd (ihf hf.1 u h1) (ihg hf.2 v h2) h
  | mul f g ihf ihg =>
    obtain ⟨u, h1, h⟩ := bind_ok h
    obtain ⟨v, h2, h⟩ := bind_ok h
    exact Surd.mul_root hd (ihf hf.1 u h1) (ihg hf.2 v h2) h
  | div f g ihf ihg =>
    obtain ⟨u, h1, h⟩ := bind_ok h
    obtain ⟨v, h2, h⟩ := bind_ok h
    exact Surd.div_root hd (ihf hf.1 u h1) (ihg hf.2 v h2) h

/-- **C122** (one field) With one square-free root throughout, a calculation returns exactly when its formula denotes a
number and divides no zero by an irrational number. -/
theorem formula_returns_iff (cfg : Cfg) (hcx : cfg.complex = false) (d : ℤ) (hd : Squarefree d) (f : Formula)
    (hf : f.Over d) : (∃ s, f.run cfg = .ok s) ↔ f.Defined ∧ f.NoZeroOver := by
  induction f with
  | lit a b c r =>
    rw [show (lit a b c r).run cfg = Surd.new cfg a b c r from rfl, surd_new_returns_iff]
    simp [Defined, NoZeroOver, hcx]
  | neg f ih =>
    rw [show (neg f).Defined = f.Defined from rfl, show (neg f).NoZeroOver = f.NoZeroOver from rfl, ← ih hf]
    constructor
    · rintro ⟨s, h⟩
      obtain ⟨u, h1, -⟩ := bind_ok h
      exact ⟨u, h1⟩
    · rintro ⟨u, h⟩
      exact ⟨u.neg, by show (f.run cfg >>= fun u => pure u.neg) = _; rw [h]; rfl⟩
  | recip f ih =>
    constructor
    · rintro ⟨s, h⟩
      obtain ⟨u, h1, -⟩ := bind_ok h
      exact ⟨(formula_value cfg hcx _ s h).1, ((ih hf).1 ⟨u, h1⟩).2⟩
    · rintro ⟨h1, h2⟩
      obtain ⟨u, h⟩ := (ih hf).2 ⟨h1.1, h2⟩
      obtain ⟨-, k1, k2⟩ := formula_value cfg hcx f u h
      obtain ⟨z, hz⟩ := (surd_recip_returns_iff cfg u (k1.toOk cfg)).2 (by
        rw [k1.valC, k2]; exact_mod_cast h1.2)
      exact ⟨z, by show (f.run cfg >>= fun u => Surd.recip cfg u) = _; rw [h]; exact hz⟩
  | add f g ihf ihg =>
    constructor
    · rintro ⟨s, h⟩
      have := (formula_value cfg hcx _ s h).1
      obtain ⟨u, h1, h⟩ := bind_ok h
      obtain ⟨v, h2, h⟩ := bind_ok h
      exact ⟨this, ((ihf hf.1).1 ⟨u, h1⟩).2, ((ihg hf.2).1 ⟨v, h2⟩).2⟩
    · rintro ⟨h1, h2⟩
      obtain ⟨u, hu⟩ := (ihf hf.1).2 ⟨h1.1, h2.1⟩
      obtain ⟨v, hv⟩ := (ihg hf.2).2 ⟨h1.2, h2.2⟩
      obtain ⟨-, k1, -⟩ := formula_value cfg hcx f u hu
      obtain ⟨-, k2, -⟩ := formula_value cfg hcx g v hv
      obtain ⟨z, hz, -⟩ := (Surd.add_spec (k1.toOk cfg) (k2.toOk cfg)).1
        ((over_root cfg hd f hf.1 u hu).compat (over_root cfg hd g hf.2 v hv))
      exact ⟨z, by show (f.run cfg >>= fun u => g.run cfg >>= fun v => Surd.add cfg u v) = _; rw [hu, hv]; exact hz⟩
  | sub f g ihf ihg =>
    constructor
    · rintro ⟨s, h⟩
      have := (formula_value cfg hcx _ s h).1
      obtain ⟨u, h1, h⟩ := bind_ok h
      obtain ⟨v, h2, h⟩ := bind_ok h
      exact ⟨this, ((ihf hf.1).1 ⟨u, h1⟩).2, ((ihg hf.2).1 ⟨v, h2⟩).2⟩
    · rintro ⟨h1, h2⟩
      obtain ⟨u, hu⟩ := (ihf hf.1).2 ⟨h1.1, h2.1⟩
      obtain ⟨v, hv⟩ := (ihg hf.2).2 ⟨h1.2, h2.2⟩
      obtain ⟨-, k1, -⟩ := formula_value cfg hcx f u hu
      obtain ⟨-, k2, -⟩ := formula_value cfg hcx g v hv
      obtain ⟨z, hz, -⟩ := (Surd.sub_spec (k1.toOk cfg) (k2.toOk cfg)).1
        ((over_root cfg hd f hf.1 u hu).compat (over_root cfg hd g hf.2 v hv))
      exact ⟨z, by show (f.run cfg >>= fun u => g.run cfg >>= fun v => Surd.sub cfg u v) = _; rw [hu, hv]; exact hz⟩
  | mul f g ihf ihg =>
    constructor
    · rintro ⟨s, h⟩
      have := (formula_value cfg hcx _ s h).1
      obtain ⟨u, h1, h⟩ := bind_ok h
      obtain ⟨v, h2, h⟩ := bind_ok h
      exact ⟨this, ((ihf hf.1).1 ⟨u, h1⟩).2, ((ihg hf.2).1 ⟨v, h2⟩).2⟩
    · rintro ⟨h1, h2⟩
      obtain ⟨u, hu⟩ := (ihf hf.1).2 ⟨h1.1, h2.1⟩
      obtain ⟨v, hv⟩ := (ihg hf.2).2 ⟨h1.2, h2.2⟩
      obtain ⟨-, k1, -⟩ := formula_value cfg hcx f u hu
      obtain ⟨-, k2, -⟩ := formula_value cfg hcx g v hv
      obtain ⟨z, hz, -⟩ := (Surd.mul_spec (k1.toOk cfg) (k2.toOk cfg)).1 (by
        have := (over_root cfg hd f hf.1 u hu).compat (over_root cfg hd g hf.2 v hv); tauto)
      exact ⟨z, by show (f.run cfg >>= fun u => g.run cfg >>= fun v => Surd.mul cfg u v) = _; rw [hu, hv]; exact hz⟩
  | div f g ihf ihg =>
    constructor
    · rintro ⟨s, h⟩
      have h0 := (formula_value cfg hcx _ s h).1
      obtain ⟨u, h1, h⟩ := bind_ok h
      obtain ⟨v, h2, h⟩ := bind_ok h
      obtain ⟨-, k1, k1'⟩ := formula_value cfg hcx f u h1
      obtain ⟨-, k2, k2'⟩ := formula_value cfg hcx g v h2
      refine ⟨h0, ((ihf hf.1).1 ⟨u, h1⟩).2, ((ihg hf.2).1 ⟨v, h2⟩).2, fun e hi => ?_⟩
      have hdr : Surd.DivReturns u v := by
        by_contra hn
        obtain ⟨p, e⟩ := (Surd.div_spec (k1.toOk cfg) (k2.toOk cfg)).2 hn
        rw [h] at e; cases e
      rw [← k2', Surd.irrational_iff k2] at hi
      have hu0 : u.valC = 0 := by rw [k1.valC, k1', e]; simp
      have hur : u.r = 0 := k1.rational.1 ((Surd.valC_eq_zero_iff k1.toNormal).1 hu0).2
      rcases hdr.2 with h | h | h
      · exact hi h
      · exact h.2 hu0
      · exact h.1 hur
    · rintro ⟨h1, h2⟩
      obtain ⟨u, hu⟩ := (ihf hf.1).2 ⟨h1.1, h2.1⟩
      obtain ⟨v, hv⟩ := (ihg hf.2).2 ⟨h1.2.1, h2.2.1⟩
      obtain ⟨-, k1, k1'⟩ := formula_value cfg hcx f u hu
      obtain ⟨-, k2, k2'⟩ := formula_value cfg hcx g v hv
      have hc := (over_root cfg hd f hf.1 u hu).compat (over_root cfg hd g hf.2 v hv)
      obtain ⟨z, hz, -⟩ := (Surd.div_spec (k1.toOk cfg) (k2.toOk cfg)).1 (by
        refine ⟨by rw [k2.valC, k2']; exact_mod_cast h1.2.2, ?_⟩
        by_cases hv0 : v.r = 0
        · exact .inl hv0
        · by_cases hu0 : u.r = 0
          · refine .inr (.inl ⟨hu0, fun e => ?_⟩)
            rw [k1.valC, k1'] at e
            refine h2.2.2 (by exact_mod_cast e) ?_
            rw [← k2', Surd.irrational_iff k2]; exact hv0
          · exact .inr (.inr ⟨hu0, by tauto⟩))
      exact ⟨z, by show (f.run cfg >>= fun u => g.run cfg >>= fun v => Surd.div cfg u v) = _; rw [hu, hv]; exact hz⟩

/-- **C122** and the result has that root, or none -/
theorem formula_root (cfg : Cfg) (d : ℤ) (hd : Squarefree d) (f : Formula) (hf : f.Over d) (s : Surd)
    (h : f.run cfg = .ok s) : s.r = 0 ∨ s.r = d := over_root cfg hd f hf s h

/-- **C122** (canonical results) With one square-free root throughout, two calculations return the same fields exactly if
they denote the same number, and exactly then the results are equal by `==`. -/
theorem formula_same (cfg : Cfg) (hcx : cfg.complex = false) (d : ℤ) (hd : Squarefree d) (f g : Formula)
    (hf : f.Over d) (hg : g.Over d) (s t : Surd) (hs : f.run cfg = .ok s) (ht : g.run cfg = .ok t) :
    (s = t ↔ f.real = g.real) ∧ (Surd.eq s t = true ↔ f.real = g.real) := by
  obtain ⟨-, h1, h2⟩ := formula_value cfg hcx f s hs
  obtain ⟨-, h3, h4⟩ := formula_value cfg hcx g t ht
  have key : f.real = g.real → s = t := by
    intro he
    have hv : s.valC = t.valC := by rw [h1.valC, h3.valC, h2, h4, he]
    have hr : s.r = t.r := by
      by_cases k1 : s.r = 0 <;> by_cases k2 : t.r = 0
      · rw [k1, k2]
      · exact absurd hv (Surd.valC_ne_of_rational h1.toNormal h3.toNormal k1 k2)
      · exact absurd hv.symm (Surd.valC_ne_of_rational h3.toNormal h1.toNormal k2 k1)
      · rw [(over_root cfg hd f hf s hs).resolve_left k1, (over_root cfg hd g hg t ht).resolve_left k2]
    obtain ⟨e1, e2, e3⟩ := Surd.fields_of_valC_eq h1.toNormal h3.toNormal hr hv
    cases s; cases t
    simp only at e1 e2 e3 hr
    rw [e1, e2, e3, hr]
  have back : s = t → f.real = g.real := by rintro rfl; rw [← h2, h4]
  refine ⟨⟨back, key⟩, fun h => back ?_, fun h => by rw [key h]; exact surd_eq_refl t⟩
  unfold Surd.eq at h
  split at h
  · next hr =>
    have := of_decide_eq_true h
    cases s; cases t
    simp only at this hr
    rw [this.1, this.2.1, this.2.2, hr]
  · next hr =>
    split at h
    · cases h
    · next h0 =>
      push Not at h0
      exact absurd ((over_root cfg hd f hf s hs).resolve_left h0.1 |>.trans
        ((over_root cfg hd g hg t ht).resolve_left h0.2).symm) hr

/-- `(1+√5)/2 * (1-√5)/2` and `√5/√5 - 2`, both `-1` -/
example : Squarefree (5 : ℤ) ∧
    (Formula.mul (.lit 1 1 2 5) (.lit 1 (-1) 2 5)).Over 5 ∧
    (Formula.mul (.lit 1 1 2 5) (.lit 1 (-1) 2 5)).run ⟨false, true⟩ = .ok ⟨-1, 0, 1, 0⟩ ∧
    (Formula.sub (.div (.lit 0 1 1 5) (.lit 0 1 1 5)) (.lit 2 0 1 5)).Over 5 ∧
    (Formula.sub (.div (.lit 0 1 1 5) (.lit 0 1 1 5)) (.lit 2 0 1 5)).run ⟨false, true⟩ = .ok ⟨-1, 0, 1, 0⟩ := by
  refine ⟨?_, by simp [Over], by decide +kernel, by simp [Over], by decide +kernel⟩
  have : Prime (5 : ℤ) := by rw [← Nat.cast_ofNat, ← Nat.prime_iff_prime_int]; decide
  exact this.squarefree

/-- **C122** Square-freeness is needed: in `(2+√72)/2 + (3+√72)/3` both numbers are written with the root 72 and the sum
is a number, but it panics, because the constructor stores them with the roots 18 and 8. -/
theorem formula_returns_refuted : ∃ (d : ℤ) (f : Formula), f.Over d ∧ f.Defined ∧ f.NoZeroOver ∧
    ∀ cfg : Cfg, f.run cfg = .error .incompatible := by
  refine ⟨72, .add (.lit 2 1 2 72) (.lit 3 1 3 72), by simp [Over], by simp [Defined], by simp [NoZeroOver], ?_⟩
  rintro ⟨c, d⟩
  cases c <;> cases d <;> decide +kernel

/-- **C122** With complex numbers the claim about values fails: `i * i` is `1` for the library, so `1 / (i*i + 1)` returns
`1/2`, although it is a division by zero. -/
theorem formula_complex_refuted : ∃ f : Formula, f.Over (-1) ∧
    f = .recip (.add (.mul (.lit 0 1 1 (-1)) (.lit 0 1 1 (-1))) (.lit 1 0 1 (-1))) ∧
    f.run ⟨true, true⟩ = .ok ⟨1, 0, 2, 0⟩ :=
  ⟨_, by simp [Over], rfl, by decide +kernel⟩

/-! ### primitive integers -/

/-- **C122** (primitive integers) With overflow checks a calculation over a primitive integer type that returns does so
with the surd that arbitrary precision would give; so all of the above applies to it. -/
theorem formula_fixed (x : Fx) (hc : x.checks = true) (cfg : Cfg) (f : Formula) (s : Surd)
    (h : f.runFx x cfg = .ok s) : f.run cfg = .ok s := by
  induction f generalizing s with
  | lit a b c r => exact (surdNew_ref hc cfg a b c r).returns h
  | neg f ih =>
    obtain ⟨u, h1, h2⟩ := bind_ok h
    show (f.run cfg >>= fun u => pure u.neg) = _
    rw [ih u h1]
    exact (surdNeg_ref hc u).returns h2
  | recip f ih =>
    obtain ⟨u, h1, h2⟩ := bind_ok h
    show (f.run cfg >>= fun u => Surd.recip cfg u) = _
    rw [ih u h1]
    exact (recip_ref hc cfg u).returns h2
  | add f g ihf ihg =>
    obtain ⟨u, h1, h⟩ := bind_ok h
    obtain ⟨v, h2, h⟩ := bind_ok h
    show (f.run cfg >>= fun u => g.run cfg >>= fun v => Surd.add cfg u v) = _
    rw [ihf u h1, ihg v h2]
    exact (surdAdd_ref hc cfg u v).returns h
  | sub f g ihf ihg =>
    obtain ⟨u, h1, h⟩ := bind_ok h
    obtain ⟨v, h2, h⟩ := bind_ok h
    show (f.run cfg >>= fun u => g.run cfg >>= fun v => Surd.sub cfg u v) = _
    rw [ihf u h1, ihg v h2]
    exact (surdSub_ref hc cfg u v).returns h
  | mul f g ihf ihg =>
    obtain ⟨u, h1, h⟩ := bind_ok h
    obtain ⟨v, h2, h⟩ := bind_ok h
    show (f.run cfg >>= fun u => g.run cfg >>= fun v => Surd.mul cfg u v) = _
    rw [ihf u h1, ihg v h2]
    exact (surdMul_ref hc cfg u v).returns h
  | div f g ihf ihg =>
    obtain ⟨u, h1, h⟩ := bind_ok h
    obtain ⟨v, h2, h⟩ := bind_ok h
    show (f.run cfg >>= fun u => g.run cfg >>= fun v => Surd.div cfg u v) = _
    rw [ihf u h1, ihg v h2]
    exact (surdDiv_ref hc cfg u v).returns h

/-- **C122** the same as a statement about numbers -/
theorem formula_fixed_value (x : Fx) (hc : x.checks = true) (cfg : Cfg) (hcx : cfg.complex = false) (f : Formula)
    (s : Surd) (h : f.runFx x cfg = .ok s) : f.Defined ∧ s.RealOk ∧ s.val = f.real :=
  formula_value cfg hcx f s (formula_fixed x hc cfg f s h)

/-- the sample overflows in `i8` and returns in `i16` -/
example : sample.runFx ⟨16, true⟩ ⟨false, true⟩ = .ok ⟨-75, -3, 620, 5⟩ ∧
    sample.runFx ⟨8, true⟩ ⟨false, true⟩ = .error .overflow := by decide +kernel

end Formula
end NumIrr
