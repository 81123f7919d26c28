/-
C131: programs with variables, branches and loops over quadratic numbers.
-/
import Verif.Spec.SurdProg
import Verif.Lemmas.Formula
import Verif.Props.SurdEq
import Verif.Props.SurdRound
import Verif.Props.SurdClass
import Verif.Props.StoredForm

namespace NumIrr
namespace SProg
open Fx
open Surd (ok_bind)

private theorem bind_ok {α β : Type} {r : Res α} {f : α → Res β} {v : β} (h : (r >>= f) = .ok v) :
    ∃ u, r = .ok u ∧ f u = .ok v := by
  cases r with
  | error e => cases h
  | ok u => exact ⟨u, rfl, h⟩

/-! ### single operations -/

private theorem real_of {z : Surd} {cfg : Cfg} {t : ℝ} (hz : z.Ok cfg) (e : z.valC = (t : ℂ)) : z.RealOk ∧ z.val = t :=
  Surd.real_transfer hz.toNormal e

private theorem op1_spec (cfg : Cfg) (o : Op1) (s : Surd) (h : s.RealOk) :
    (o.Defined s.val → ∃ z, o.run cfg s = .ok z ∧ z.RealOk ∧ z.val = o.real s.val) ∧
    (¬ o.Defined s.val → ∀ z, o.run cfg s ≠ .ok z) := by
  have ho := h.toOk cfg
  cases o with
  | neg =>
    refine ⟨fun _ => ?_, fun hn => absurd trivial hn⟩
    obtain ⟨h1, h2⟩ := surd_neg_value cfg s ho
    exact ⟨_, rfl, real_of h2 (by rw [h1, h.valC]; simp [Op1.real])⟩
  | recip =>
    have hi := surd_recip_returns_iff cfg s ho
    constructor
    · intro hd
      obtain ⟨z, hz⟩ := hi.2 (by rw [h.valC]; exact_mod_cast hd)
      obtain ⟨h1, h2⟩ := surd_recip_value cfg s z ho hz
      exact ⟨z, hz, real_of h2 (by rw [h1, h.valC]; simp [Op1.real])⟩
    · intro hd z hz
      have := hi.1 ⟨z, hz⟩
      rw [h.valC] at this
      exact hd (fun e => this (by rw [e]; simp))
  | floor =>
    refine ⟨fun _ => ⟨_, surd_floor cfg s h, real_of (surd_ofInt_normal cfg _) (by
      rw [surd_ofInt_value]; simp [Op1.real])⟩, fun hn => absurd trivial hn⟩
  | addI k =>
    refine ⟨fun _ => ?_, fun hn => absurd trivial hn⟩
    obtain ⟨z, h0, h1, h2⟩ := surd_addInt_value cfg s k ho
    exact ⟨z, h0, real_of h2 (by rw [h1, h.valC]; simp [Op1.real])⟩
  | subI k =>
    refine ⟨fun _ => ?_, fun hn => absurd trivial hn⟩
    obtain ⟨z, h0, h1, h2⟩ := surd_subInt_value cfg s k ho
    exact ⟨z, h0, real_of h2 (by rw [h1, h.valC]; simp [Op1.real])⟩
  | mulI k =>
    refine ⟨fun _ => ?_, fun hn => absurd trivial hn⟩
    obtain ⟨z, h0, h1, h2⟩ := surd_mulInt_value cfg s k ho
    exact ⟨z, h0, real_of h2 (by rw [h1, h.valC]; simp [Op1.real])⟩
  | divI k =>
    constructor
    · intro hd
      obtain ⟨z, h0, h1, h2⟩ := surd_divInt_value cfg s k ho hd
      exact ⟨z, h0, real_of h2 (by rw [h1, h.valC]; simp [Op1.real])⟩
    · intro hd z hz
      have : k = 0 := by by_contra hk; exact hd hk
      subst this
      have h1 := surd_divInt_zero cfg s ho
      rw [show Op1.run cfg (.divI 0) s = s.divInt cfg 0 from rfl, h1] at hz
      cases hz
  | addR q =>
    refine ⟨fun _ => ?_, fun hn => absurd trivial hn⟩
    obtain ⟨z, h0, h1, h2⟩ := surd_addRat_value cfg s q ho
    exact ⟨z, h0, real_of h2 (by rw [h1, h.valC]; simp [Op1.real])⟩
  | subR q =>
    refine ⟨fun _ => ?_, fun hn => absurd trivial hn⟩
    obtain ⟨z, h0, h1, h2⟩ := surd_subRat_value cfg s q ho
    exact ⟨z, h0, real_of h2 (by rw [h1, h.valC]; simp [Op1.real])⟩
  | mulR q =>
    refine ⟨fun _ => ?_, fun hn => absurd trivial hn⟩
    obtain ⟨z, h0, h1, h2⟩ := surd_mulRat_value cfg s q ho
    exact ⟨z, h0, real_of h2 (by rw [h1, h.valC]; simp [Op1.real])⟩
  | divR q =>
    constructor
    · intro hd
      obtain ⟨z, h0, h1, h2⟩ := surd_divRat_value cfg s q ho hd
      exact ⟨z, h0, real_of h2 (by rw [h1, h.valC]; simp [Op1.real])⟩
    · intro hd z hz
      have : q = 0 := by by_contra hk; exact hd hk
      subst this
      have h1 := surd_divRat_zero cfg s ho
      rw [show Op1.run cfg (.divR 0) s = s.divRat cfg 0 from rfl, h1] at hz
      cases hz

private theorem op1_root (cfg : Cfg) {d : ℤ} (hd : Squarefree d) (o : Op1) (s z : Surd) (h : s.RealOk) (hs : Surd.InF d s)
    (hz : o.run cfg s = .ok z) : Surd.InF d z := by
  have hr : s.r = 0 ∨ s.r = d ∨ s.r = 1 := by rcases hs with h | h <;> simp [h]
  cases o with
  | neg => cases hz; exact hs
  | recip => exact Surd.recip_root hd hs hz
  | floor =>
    rw [show Op1.run cfg .floor s = s.floor cfg from rfl, surd_floor cfg s h] at hz
    cases hz; exact .inl rfl
  | addI k => exact Surd.new_root hd hr hz
  | subI k => exact Surd.new_root hd hr hz
  | mulI k => exact Surd.new_root hd hr hz
  | divI k => exact Surd.new_root hd hr hz
  | addR k => exact Surd.new_root hd hr hz
  | subR k => exact Surd.new_root hd hr hz
  | mulR k => exact Surd.new_root hd hr hz
  | divR k => exact Surd.new_root hd hr hz

private theorem op2_value (cfg : Cfg) (o : Op2) (s t z : Surd) (h : s.RealOk) (k : t.RealOk)
    (hz : o.run cfg s t = .ok z) : o.Defined s.val t.val ∧ z.RealOk ∧ z.val = o.real s.val t.val := by
  cases o with
  | add => exact ⟨trivial, surd_add_value_real cfg s t z h k hz⟩
  | sub => exact ⟨trivial, surd_sub_value_real cfg s t z h k hz⟩
  | mul => exact ⟨trivial, surd_mul_value_real cfg s t z h k hz⟩
  | div =>
    obtain ⟨k0, k1, k2⟩ := surd_div_value_real cfg s t z h k hz
    refine ⟨⟨k0, fun e hi => ?_⟩, k1, k2⟩
    have hdr : Surd.DivReturns s t := by
      by_contra hn
      obtain ⟨p, e⟩ := (Surd.div_spec (h.toOk cfg) (k.toOk cfg)).2 hn
      rw [show Op2.run cfg .div s t = s.div cfg t from rfl, e] at hz; cases hz
    rw [Surd.irrational_iff k] at hi
    have hu0 : s.valC = 0 := by rw [h.valC, e]; simp
    have hur : s.r = 0 := h.rational.1 ((Surd.valC_eq_zero_iff h.toNormal).1 hu0).2
    rcases hdr.2 with h | h | h
    · exact hi h
    · exact h.2 hu0
    · exact h.1 hur

private theorem op2_root (cfg : Cfg) {d : ℤ} (hd : Squarefree d) (o : Op2) (s t z : Surd) (hs : Surd.InF d s)
    (ht : Surd.InF d t) (hz : o.run cfg s t = .ok z) : Surd.InF d z := by
  cases o with
  | add => exact Surd.add_root hd hs ht hz
  | sub => exact Surd.sub_root hd hs ht hz
  | mul => exact Surd.mul_root hd hs ht hz
  | div => exact Surd.div_root hd hs ht hz

private theorem op2_returns (cfg : Cfg) {d : ℤ} (o : Op2) (s t : Surd) (h : s.RealOk) (k : t.RealOk)
    (hs : Surd.InF d s) (ht : Surd.InF d t) (hdf : o.Defined s.val t.val) : ∃ z, o.run cfg s t = .ok z := by
  have hc := hs.compat ht
  cases o with
  | add => obtain ⟨z, hz, -⟩ := (Surd.add_spec (h.toOk cfg) (k.toOk cfg)).1 hc; exact ⟨z, hz⟩
  | sub => obtain ⟨z, hz, -⟩ := (Surd.sub_spec (h.toOk cfg) (k.toOk cfg)).1 hc; exact ⟨z, hz⟩
  | mul => obtain ⟨z, hz, -⟩ := (Surd.mul_spec (h.toOk cfg) (k.toOk cfg)).1 (by tauto); exact ⟨z, hz⟩
  | div =>
    obtain ⟨z, hz, -⟩ := (Surd.div_spec (h.toOk cfg) (k.toOk cfg)).1 (by
      refine ⟨by rw [k.valC]; exact_mod_cast hdf.1, ?_⟩
      by_cases hv0 : t.r = 0
      · exact .inl hv0
      · by_cases hu0 : s.r = 0
        · refine .inr (.inl ⟨hu0, fun e => ?_⟩)
          rw [h.valC] at e
          exact hdf.2 (by exact_mod_cast e) ((Surd.irrational_iff k).2 hv0)
        · exact .inr (.inr ⟨hu0, by tauto⟩))
    exact ⟨z, hz⟩

/-! ### expressions -/

/-- all variables hold real surds -/
def Good (σ : Nat → Surd) : Prop := ∀ i, (σ i).RealOk

/-- all variables hold surds with the root `√d` or none -/
def Field (d : ℤ) (σ : Nat → Surd) : Prop := ∀ i, Surd.InF d (σ i)

/-- the numbers held -/
noncomputable def vals (σ : Nat → Surd) : Nat → ℝ := fun i => (σ i).val

private theorem expr_value (cfg : Cfg) (hcx : cfg.complex = false) {σ : Nat → Surd} (hσ : Good σ) (e : Expr) (s : Surd)
    (h : e.run cfg σ = .ok s) : e.Defined (vals σ) ∧ s.RealOk ∧ s.val = e.real (vals σ) := by
  induction e generalizing s with
  | var i => cases h; exact ⟨trivial, hσ i, rfl⟩
  | lit a b c r =>
    obtain ⟨h1, h2⟩ := (surd_new_returns_iff cfg a b c r).1 ⟨s, h⟩
    have h3 : 0 ≤ r := by simpa [hcx] using h2
    obtain ⟨h4, h5⟩ := surd_new_value_real cfg a b c r s h3 h
    exact ⟨⟨h1, h3⟩, ⟨(surd_new_normal cfg a b c r s h).toNormal, h4⟩, h5⟩
  | op1 o e ih =>
    obtain ⟨u, h1, h2⟩ := bind_ok h
    obtain ⟨d, k1, k2⟩ := ih u h1
    obtain ⟨o1, o2⟩ := op1_spec cfg o u k1
    have hd : o.Defined u.val := by by_contra hn; exact o2 hn s h2
    obtain ⟨z, z1, z2, z3⟩ := o1 hd
    rw [h2] at z1; cases z1
    exact ⟨⟨d, k2 ▸ hd⟩, z2, by rw [z3, k2]; rfl⟩
  | op2 o e f ihe ihf =>
    obtain ⟨u, h1, h⟩ := bind_ok h
    obtain ⟨v, h2, h⟩ := bind_ok h
    obtain ⟨d1, k1, k2⟩ := ihe u h1
    obtain ⟨d2, k3, k4⟩ := ihf v h2
    obtain ⟨j1, j2, j3⟩ := op2_value cfg o u v s k1 k3 h
    exact ⟨⟨d1, d2, k2 ▸ k4 ▸ j1⟩, j2, by rw [j3, k2, k4]; rfl⟩

private theorem expr_root (cfg : Cfg) (hcx : cfg.complex = false) {d : ℤ} (hd : Squarefree d) {σ : Nat → Surd}
    (hσ : Good σ) (hf : Field d σ) (e : Expr) (he : e.Over d) (s : Surd) (h : e.run cfg σ = .ok s) : Surd.InF d s := by
  induction e generalizing s with
  | var i => cases h; exact hf i
  | lit a b c r => exact Surd.new_root hd (.inr (.inl he)) h
  | op1 o e ih =>
    obtain ⟨u, h1, h2⟩ := bind_ok h
    exact op1_root cfg hd o u s (expr_value cfg hcx hσ e u h1).2.1 (ih he u h1) h2
  | op2 o e f ihe ihf =>
    obtain ⟨u, h1, h⟩ := bind_ok h
    obtain ⟨v, h2, h⟩ := bind_ok h
    exact op2_root cfg hd o u v s (ihe he.1 u h1) (ihf he.2 v h2) h

private theorem expr_returns (cfg : Cfg) (hcx : cfg.complex = false) {d : ℤ} (hd : Squarefree d) {σ : Nat → Surd}
    (hσ : Good σ) (hf : Field d σ) (e : Expr) (he : e.Over d) (h : e.Defined (vals σ)) : ∃ s, e.run cfg σ = .ok s := by
  induction e with
  | var i => exact ⟨_, rfl⟩
  | lit a b c r => exact (surd_new_returns_iff cfg a b c r).2 ⟨h.1, by simp [h.2]⟩
  | op1 o e ih =>
    obtain ⟨u, hu⟩ := ih he h.1
    obtain ⟨-, k1, k2⟩ := expr_value cfg hcx hσ e u hu
    obtain ⟨z, hz, -⟩ := (op1_spec cfg o u k1).1 (k2 ▸ h.2)
    exact ⟨z, by show (e.run cfg σ >>= fun u => o.run cfg u) = _; rw [hu]; exact hz⟩
  | op2 o e f ihe ihf =>
    obtain ⟨u, hu⟩ := ihe he.1 h.1
    obtain ⟨v, hv⟩ := ihf he.2 h.2.1
    obtain ⟨-, k1, k2⟩ := expr_value cfg hcx hσ e u hu
    obtain ⟨-, k3, k4⟩ := expr_value cfg hcx hσ f v hv
    obtain ⟨z, hz⟩ := op2_returns cfg o u v k1 k3 (expr_root cfg hcx hd hσ hf e he.1 u hu)
      (expr_root cfg hcx hd hσ hf f he.2 v hv) (by rw [k2, k4]; exact h.2.2)
    exact ⟨z, by show (e.run cfg σ >>= fun u => f.run cfg σ >>= fun v => o.run cfg u v) = _; rw [hu, hv]; exact hz⟩

/-! ### tests -/

private theorem eq_field {d : ℤ} {s t : Surd} (hs : s.RealOk) (ht : t.RealOk) (is : Surd.InF d s) (it : Surd.InF d t) :
    Surd.eq s t = true ↔ s.val = t.val := by
  constructor
  · intro h
    unfold Surd.eq at h
    split at h
    · next hr =>
      have := of_decide_eq_true h
      cases s; cases t
      simp only at this hr
      rw [this.1, this.2.1, this.2.2, hr]
    · next hr =>
      split at h
      · cases h
      · next h0 =>
        push Not at h0
        exact absurd (is.resolve_left h0.1 |>.trans (it.resolve_left h0.2).symm) hr
  · intro h
    exact surd_eq_complete ⟨false, true⟩ s t (hs.toOk _) (ht.toOk _) (by rw [hs.valC, ht.valC, h])

private theorem rational_iff (cfg : Cfg) {s : Surd} (h : s.RealOk) : s.isRational = true ↔ ¬ Irrational s.val := by
  rw [Surd.irrational_iff h, not_not, (h.toOk cfg).isRational_iff]

private theorem integer_iff (cfg : Cfg) {s : Surd} (h : s.RealOk) : s.isInteger = true ↔ ∃ k : ℤ, s.val = k := by
  rw [surd_isInteger cfg s (h.toOk cfg), h.valC]
  exact exists_congr fun k => by exact_mod_cast Iff.rfl

private theorem test_value (cfg : Cfg) (hcx : cfg.complex = false) {σ : Nat → Surd} (hσ : Good σ) (t : Test)
    (hq : t.NoEq ∨ ∃ d, Squarefree d ∧ Field d σ ∧ t.Over d) (b : Bool)
    (h : t.run cfg σ = .ok b) : t.Defined (vals σ) ∧ (b = true ↔ t.Holds (vals σ)) := by
  induction t generalizing b with
  | positive e =>
    obtain ⟨u, h1, h2⟩ := bind_ok h
    obtain ⟨d, k1, k2⟩ := expr_value cfg hcx hσ e u h1
    obtain ⟨b', e1, e2⟩ := surd_isPositive cfg u k1
    rw [e1] at h2; cases h2
    exact ⟨d, by rw [e2, k2]; rfl⟩
  | negative e =>
    obtain ⟨u, h1, h2⟩ := bind_ok h
    obtain ⟨d, k1, k2⟩ := expr_value cfg hcx hσ e u h1
    obtain ⟨b', e1, e2⟩ := surd_isNegative cfg u k1
    rw [e1] at h2; cases h2
    exact ⟨d, by rw [e2, k2]; rfl⟩
  | zero e =>
    obtain ⟨u, h1, h2⟩ := bind_ok h
    obtain ⟨d, k1, k2⟩ := expr_value cfg hcx hσ e u h1
    cases h2
    refine ⟨d, ?_⟩
    rw [surd_isZero cfg u (k1.toOk cfg), k1.valC, Test.Holds, ← k2]
    exact_mod_cast Iff.rfl
  | one e =>
    obtain ⟨u, h1, h2⟩ := bind_ok h
    obtain ⟨d, k1, k2⟩ := expr_value cfg hcx hσ e u h1
    cases h2
    refine ⟨d, ?_⟩
    rw [surd_isOne cfg u (k1.toOk cfg), k1.valC, Test.Holds, ← k2]
    exact_mod_cast Iff.rfl
  | rational e =>
    obtain ⟨u, h1, h2⟩ := bind_ok h
    obtain ⟨d, k1, k2⟩ := expr_value cfg hcx hσ e u h1
    cases h2
    exact ⟨d, by rw [rational_iff cfg k1, k2]; rfl⟩
  | integer e =>
    obtain ⟨u, h1, h2⟩ := bind_ok h
    obtain ⟨d, k1, k2⟩ := expr_value cfg hcx hσ e u h1
    cases h2
    exact ⟨d, by rw [integer_iff cfg k1, k2]; rfl⟩
  | equal e f =>
    obtain ⟨d, hd, hf, ho⟩ := hq.resolve_left (fun h => h)
    obtain ⟨u, h1, h⟩ := bind_ok h
    obtain ⟨v, h2, h⟩ := bind_ok h
    cases h
    obtain ⟨d1, k1, k2⟩ := expr_value cfg hcx hσ e u h1
    obtain ⟨d2, k3, k4⟩ := expr_value cfg hcx hσ f v h2
    exact ⟨⟨d1, d2⟩, by
      rw [eq_field k1 k3 (expr_root cfg hcx hd hσ hf e ho.1 u h1) (expr_root cfg hcx hd hσ hf f ho.2 v h2), k2, k4]; rfl⟩
  | not t ih =>
    obtain ⟨u, h1, h2⟩ := bind_ok h
    cases h2
    obtain ⟨d, k⟩ := ih hq u h1
    exact ⟨d, by rw [Test.Holds, ← k]; simp⟩
  | and t u iht ihu =>
    obtain ⟨b', h1, h2⟩ := bind_ok h
    have q1 : t.NoEq ∨ ∃ d, Squarefree d ∧ Field d σ ∧ t.Over d := by
      rcases hq with h | ⟨d, a, b, c⟩
      · exact .inl h.1
      · exact .inr ⟨d, a, b, c.1⟩
    have q2 : u.NoEq ∨ ∃ d, Squarefree d ∧ Field d σ ∧ u.Over d := by
      rcases hq with h | ⟨d, a, b, c⟩
      · exact .inl h.2
      · exact .inr ⟨d, a, b, c.2⟩
    obtain ⟨d, k⟩ := iht q1 b' h1
    cases b' with
    | false =>
      have hn : ¬ t.Holds (vals σ) := fun hh => by simpa using k.2 hh
      cases h2
      exact ⟨⟨d, fun hh => absurd hh hn⟩, by simp [Test.Holds, hn]⟩
    | true =>
      obtain ⟨d', k'⟩ := ihu q2 b h2
      exact ⟨⟨d, fun _ => d'⟩, by rw [k', Test.Holds]; simp [k.1 rfl]⟩

private theorem test_returns (cfg : Cfg) (hcx : cfg.complex = false) {d : ℤ} (hd : Squarefree d) {σ : Nat → Surd}
    (hσ : Good σ) (hf : Field d σ) (t : Test) (ht : t.Over d) (h : t.Defined (vals σ)) : ∃ b, t.run cfg σ = .ok b := by
  induction t with
  | positive e =>
    obtain ⟨u, hu⟩ := expr_returns cfg hcx hd hσ hf e ht h
    obtain ⟨b, e1, -⟩ := surd_isPositive cfg u (expr_value cfg hcx hσ e u hu).2.1
    exact ⟨b, by simp only [Test.run, hu, ok_bind, e1]⟩
  | negative e =>
    obtain ⟨u, hu⟩ := expr_returns cfg hcx hd hσ hf e ht h
    obtain ⟨b, e1, -⟩ := surd_isNegative cfg u (expr_value cfg hcx hσ e u hu).2.1
    exact ⟨b, by simp only [Test.run, hu, ok_bind, e1]⟩
  | zero e =>
    obtain ⟨u, hu⟩ := expr_returns cfg hcx hd hσ hf e ht h
    exact ⟨_, by simp only [Test.run, hu, ok_bind]; rfl⟩
  | one e =>
    obtain ⟨u, hu⟩ := expr_returns cfg hcx hd hσ hf e ht h
    exact ⟨_, by simp only [Test.run, hu, ok_bind]; rfl⟩
  | rational e =>
    obtain ⟨u, hu⟩ := expr_returns cfg hcx hd hσ hf e ht h
    exact ⟨_, by simp only [Test.run, hu, ok_bind]; rfl⟩
  | integer e =>
    obtain ⟨u, hu⟩ := expr_returns cfg hcx hd hσ hf e ht h
    exact ⟨_, by simp only [Test.run, hu, ok_bind]; rfl⟩
  | equal e f =>
    obtain ⟨u, hu⟩ := expr_returns cfg hcx hd hσ hf e ht.1 h.1
    obtain ⟨v, hv⟩ := expr_returns cfg hcx hd hσ hf f ht.2 h.2
    exact ⟨_, by simp only [Test.run, hu, hv, ok_bind]; rfl⟩
  | not t ih =>
    obtain ⟨b, hb⟩ := ih ht h
    exact ⟨!b, by simp only [Test.run, hb, ok_bind]; rfl⟩
  | and t u iht ihu =>
    obtain ⟨b, hb⟩ := iht ht.1 h.1
    cases b with
    | false => exact ⟨false, by simp only [Test.run, hb, ok_bind]; rfl⟩
    | true =>
      have := (test_value cfg hcx hσ t (.inr ⟨d, hd, hf, ht.1⟩) true hb).2.1 rfl
      obtain ⟨b', hb'⟩ := ihu ht.2 (h.2 this)
      exact ⟨b', by simp only [Test.run, hb, ok_bind, if_true, hb']⟩

/-! ### programs -/

private theorem vals_update (σ : Nat → Surd) (i : Nat) (s : Surd) :
    vals (Function.update σ i s) = Function.update (vals σ) i s.val := by
  funext j
  by_cases h : j = i
  · subst h; simp [vals]
  · simp [vals, h]

private theorem good_update {σ : Nat → Surd} (h : Good σ) (i : Nat) {s : Surd} (hs : s.RealOk) :
    Good (Function.update σ i s) := by
  intro j
  by_cases e : j = i
  · subst e; simpa using hs
  · simpa [e] using h j

private theorem field_update {d : ℤ} {σ : Nat → Surd} (h : Field d σ) (i : Nat) {s : Surd} (hs : Surd.InF d s) :
    Field d (Function.update σ i s) := by
  intro j
  by_cases e : j = i
  · subst e; simpa using hs
  · simpa [e] using h j

theorem prog_core (cfg : Cfg) (hcx : cfg.complex = false) (n : Nat) (p : Prog) (σ σ' : Nat → Surd) (hσ : Good σ)
    (hq : p.NoEq ∨ ∃ d, Squarefree d ∧ Field d σ ∧ p.Over d) (h : p.run cfg n σ = some (.ok σ')) :
    Good σ' ∧ p.Runs (vals σ) (vals σ') ∧ ∀ d, Squarefree d → Field d σ → p.Over d → Field d σ' := by
  induction n generalizing p σ σ' with
  | zero => cases h
  | succ n ih =>
    cases p with
    | skip => cases h; exact ⟨hσ, .skip _, fun _ _ h _ => h⟩
    | assign i e =>
      simp only [Prog.run] at h
      split at h
      · cases h
      · next s hs =>
        cases h
        obtain ⟨d, k1, k2⟩ := expr_value cfg hcx hσ e s hs
        refine ⟨good_update hσ i k1, ?_, fun d hd hf ho => field_update hf i (expr_root cfg hcx hd hσ hf e ho s hs)⟩
        rw [vals_update, k2]
        exact .assign i e _ d
    | seq p q =>
      simp only [Prog.run] at h
      have q1 : p.NoEq ∨ ∃ d, Squarefree d ∧ Field d σ ∧ p.Over d := by
        rcases hq with h | ⟨d, a, b, c⟩
        · exact .inl h.1
        · exact .inr ⟨d, a, b, c.1⟩
      split at h
      · next σ1 h1 =>
        obtain ⟨g1, r1, f1⟩ := ih p σ σ1 hσ q1 h1
        have q2 : q.NoEq ∨ ∃ d, Squarefree d ∧ Field d σ1 ∧ q.Over d := by
          rcases hq with h | ⟨d, a, b, c⟩
          · exact .inl h.2
          · exact .inr ⟨d, a, f1 d a b c.1, c.2⟩
        obtain ⟨g2, r2, f2⟩ := ih q σ1 σ' g1 q2 h
        exact ⟨g2, .seq r1 r2, fun d hd hf ho => f2 d hd (f1 d hd hf ho.1) ho.2⟩
      · next hn => exact absurd h (hn _)
    | ite t p q =>
      simp only [Prog.run] at h
      have qt : t.NoEq ∨ ∃ d, Squarefree d ∧ Field d σ ∧ t.Over d := by
        rcases hq with h | ⟨d, a, b, c⟩
        · exact .inl h.1
        · exact .inr ⟨d, a, b, c.1⟩
      split at h
      · cases h
      · next ht =>
        obtain ⟨td, th⟩ := test_value cfg hcx hσ t qt _ ht
        obtain ⟨g1, r1, f1⟩ := ih p σ σ' hσ (by
          rcases hq with h | ⟨d, a, b, c⟩
          · exact .inl h.2.1
          · exact .inr ⟨d, a, b, c.2.1⟩) h
        exact ⟨g1, .iteTrue td (th.1 rfl) r1, fun d hd hf ho => f1 d hd hf ho.2.1⟩
      · next ht =>
        obtain ⟨td, th⟩ := test_value cfg hcx hσ t qt _ ht
        obtain ⟨g1, r1, f1⟩ := ih q σ σ' hσ (by
          rcases hq with h | ⟨d, a, b, c⟩
          · exact .inl h.2.2
          · exact .inr ⟨d, a, b, c.2.2⟩) h
        exact ⟨g1, .iteFalse td (fun hh => by simpa using th.2 hh) r1, fun d hd hf ho => f1 d hd hf ho.2.2⟩
    | «while» t p =>
      simp only [Prog.run] at h
      have qt : t.NoEq ∨ ∃ d, Squarefree d ∧ Field d σ ∧ t.Over d := by
        rcases hq with h | ⟨d, a, b, c⟩
        · exact .inl h.1
        · exact .inr ⟨d, a, b, c.1⟩
      split at h
      · cases h
      · next ht =>
        cases h
        obtain ⟨td, th⟩ := test_value cfg hcx hσ t qt _ ht
        exact ⟨hσ, .whileFalse td (fun hh => by simpa using th.2 hh), fun _ _ h _ => h⟩
      · next ht =>
        obtain ⟨td, th⟩ := test_value cfg hcx hσ t qt _ ht
        split at h
        · next σ1 h1 =>
          obtain ⟨g1, r1, f1⟩ := ih p σ σ1 hσ (by
            rcases hq with h | ⟨d, a, b, c⟩
            · exact .inl h.2
            · exact .inr ⟨d, a, b, c.2⟩) h1
          obtain ⟨g2, r2, f2⟩ := ih (.while t p) σ1 σ' g1 (by
            rcases hq with h | ⟨d, a, b, c⟩
            · exact .inl h
            · exact .inr ⟨d, a, f1 d a b c.2, c⟩) h
          exact ⟨g2, .whileTrue td (th.1 rfl) r1 r2, fun d hd hf ho => f2 d hd (f1 d hd hf ho.2) ho⟩
        · next hn => exact absurd h (hn _)

private theorem run_mono (cfg : Cfg) (n : Nat) (p : Prog) (σ : Nat → Surd) (r : Res (Nat → Surd))
    (h : p.run cfg n σ = some r) (m : Nat) (hm : n ≤ m) : p.run cfg m σ = some r := by
  induction n generalizing p σ r m with
  | zero => cases h
  | succ n ih =>
    obtain ⟨m, rfl⟩ : ∃ k, m = k + 1 := ⟨m - 1, by omega⟩
    have hm : n ≤ m := by omega
    cases p with
    | skip => exact h
    | assign i e => exact h
    | seq p q =>
      simp only [Prog.run] at h ⊢
      cases h1 : p.run cfg n σ with
      | none => rw [h1] at h; cases h
      | some r1 =>
        rw [h1] at h; rw [ih p σ r1 h1 m hm]
        cases r1 with
        | error e => exact h
        | ok σ1 => exact ih q σ1 r h m hm
    | ite t p q =>
      simp only [Prog.run] at h ⊢
      cases ht : t.run cfg σ with
      | error e => rw [ht] at h; exact h
      | ok b =>
        rw [ht] at h
        cases b with
        | true => exact ih p σ r h m hm
        | false => exact ih q σ r h m hm
    | «while» t p =>
      simp only [Prog.run] at h ⊢
      cases ht : t.run cfg σ with
      | error e => rw [ht] at h; exact h
      | ok b =>
        rw [ht] at h
        cases b with
        | false => exact h
        | true =>
          simp only at h ⊢
          cases h1 : p.run cfg n σ with
          | none => rw [h1] at h; cases h
          | some r1 =>
            rw [h1] at h; rw [ih p σ r1 h1 m hm]
            cases r1 with
            | error e => exact h
            | ok σ1 => exact ih _ σ1 r h m hm

/-- expands `√14` into a continued fraction until the coefficient 6 comes up: variable 0 is the complete quotient, variable
1 its floor, variable 2 counts the rounds -/
def sample : Prog :=
  .seq (.assign 0 (.lit 0 1 1 14))
    (.seq (.assign 1 (.op1 .floor (.var 0)))
      (.while (.not (.equal (.var 1) (.lit 6 0 1 14)))
        (.seq (.assign 0 (.op1 .recip (.op2 .sub (.var 0) (.var 1))))
          (.seq (.assign 1 (.op1 .floor (.var 0))) (.assign 2 (.op1 (.addI 1) (.var 2)))))))

/-- what is in variable `i` in the end -/
def look (r : Option (Res (Nat → Surd))) (i : Nat) : Option (Res Surd) := r.map (·.map (· i))

/-- √14 = [3; 1, 2, 1, 6, …] -/
example : look (sample.run ⟨false, true⟩ 20 fun _ => Surd.zero) 1 = some (.ok ⟨6, 0, 1, 0⟩) ∧
    look (sample.run ⟨false, true⟩ 20 fun _ => Surd.zero) 0 = some (.ok ⟨3, 1, 1, 14⟩) ∧
    look (sample.run ⟨false, true⟩ 20 fun _ => Surd.zero) 2 = some (.ok ⟨4, 0, 1, 0⟩) := by decide +kernel

private theorem good_zero : Good fun _ => Surd.zero := by
  have h : Surd.zero.RealOk := by decide +kernel
  exact fun _ => h
private theorem field_zero (d : ℤ) : Field d fun _ => Surd.zero := fun _ => .inl rfl

/-- **C131** (values) Without complex numbers, and if `==` is not asked for, a program that finishes has done what it would
have done with real numbers: the same branches, the same number of rounds, the same numbers in all variables. -/
theorem prog_value (cfg : Cfg) (hcx : cfg.complex = false) (n : Nat) (p : Prog) (hp : p.NoEq) (σ σ' : Nat → Surd)
    (hσ : Good σ) (h : p.run cfg n σ = some (.ok σ')) : Good σ' ∧ p.Runs (vals σ) (vals σ') :=
  let r := prog_core cfg hcx n p σ σ' hσ (.inl hp) h
  ⟨r.1, r.2.1⟩

/-- counts down from 10 by `√2` and by `√18` while positive -/
example : (Prog.seq (.assign 0 (.lit 10 0 1 0)) (.while (.positive (.var 0))
      (.seq (.assign 0 (.op2 .sub (.var 0) (.lit 0 1 1 2))) (.assign 0 (.op2 .sub (.var 0) (.lit 0 1 1 18)))))).NoEq ∧
    look ((Prog.seq (.assign 0 (.lit 10 0 1 0)) (.while (.positive (.var 0))
      (.seq (.assign 0 (.op2 .sub (.var 0) (.lit 0 1 1 2))) (.assign 0 (.op2 .sub (.var 0) (.lit 0 1 1 18)))))).run
        ⟨false, true⟩ 20 fun _ => Surd.zero) 0 = some (.ok ⟨10, -8, 1, 2⟩) := by
  refine ⟨by simp [Prog.NoEq, Test.NoEq], by decide +kernel⟩

/-- **C131** (one field) With one square-free root throughout, the same holds with `==`; and conversely a program that
finishes with real numbers finishes with surds. -/
theorem prog_iff (cfg : Cfg) (hcx : cfg.complex = false) (d : ℤ) (hd : Squarefree d) (p : Prog) (hp : p.Over d)
    (σ : Nat → Surd) (hσ : Good σ) (hf : Field d σ) (ρ : Nat → ℝ) :
    p.Runs (vals σ) ρ ↔ ∃ σ', Good σ' ∧ Field d σ' ∧ vals σ' = ρ ∧
      ∃ N, ∀ n, N ≤ n → p.run cfg n σ = some (.ok σ') := by
  constructor
  · intro h
    suffices ∃ σ', Good σ' ∧ Field d σ' ∧ vals σ' = ρ ∧ ∃ n, p.run cfg n σ = some (.ok σ') by
      obtain ⟨σ', a, b, c, n, h⟩ := this
      exact ⟨σ', a, b, c, n, fun m hm => run_mono cfg n p σ _ h m hm⟩
    obtain ⟨τ, hτ⟩ : ∃ τ, τ = vals σ := ⟨_, rfl⟩
    rw [← hτ] at h
    induction h generalizing σ with
    | skip τ => exact ⟨σ, hσ, hf, hτ.symm, 1, rfl⟩
    | assign i e τ h =>
      subst hτ
      obtain ⟨s, hs⟩ := expr_returns cfg hcx hd hσ hf e hp h
      obtain ⟨-, k1, k2⟩ := expr_value cfg hcx hσ e s hs
      exact ⟨_, good_update hσ i k1, field_update hf i (expr_root cfg hcx hd hσ hf e hp s hs),
        by rw [vals_update, k2], 1, by simp only [Prog.run, hs]⟩
    | seq h1 h2 ih1 ih2 =>
      obtain ⟨σ1, g1, f1, v1, n, r1⟩ := ih1 hp.1 σ hσ hf hτ
      obtain ⟨σ2, g2, f2, v2, m, r2⟩ := ih2 hp.2 σ1 g1 f1 v1.symm
      refine ⟨σ2, g2, f2, v2, max n m + 1, ?_⟩
      simp only [Prog.run, run_mono cfg _ _ _ _ r1 _ (le_max_left n m)]
      exact run_mono cfg _ _ _ _ r2 _ (le_max_right n m)
    | iteTrue td th h ih =>
      subst hτ
      obtain ⟨b, hb⟩ := test_returns cfg hcx hd hσ hf _ hp.1 td
      have := (test_value cfg hcx hσ _ (.inr ⟨d, hd, hf, hp.1⟩) b hb).2.2 th
      subst this
      obtain ⟨σ1, g1, f1, v1, n, r1⟩ := ih hp.2.1 σ hσ hf rfl
      exact ⟨σ1, g1, f1, v1, n + 1, by simp only [Prog.run, hb, r1]⟩
    | iteFalse td th h ih =>
      subst hτ
      obtain ⟨b, hb⟩ := test_returns cfg hcx hd hσ hf _ hp.1 td
      have := (test_value cfg hcx hσ _ (.inr ⟨d, hd, hf, hp.1⟩) b hb).2
      obtain rfl : b = false := by
        cases b
        · rfl
        · exact absurd (this.1 rfl) th
      obtain ⟨σ1, g1, f1, v1, n, r1⟩ := ih hp.2.2 σ hσ hf rfl
      exact ⟨σ1, g1, f1, v1, n + 1, by simp only [Prog.run, hb, r1]⟩
    | whileTrue td th h1 h2 ih1 ih2 =>
      subst hτ
      obtain ⟨b, hb⟩ := test_returns cfg hcx hd hσ hf _ hp.1 td
      have := (test_value cfg hcx hσ _ (.inr ⟨d, hd, hf, hp.1⟩) b hb).2.2 th
      subst this
      obtain ⟨σ1, g1, f1, v1, n, r1⟩ := ih1 hp.2 σ hσ hf rfl
      obtain ⟨σ2, g2, f2, v2, m, r2⟩ := ih2 hp σ1 g1 f1 v1.symm
      refine ⟨σ2, g2, f2, v2, max n m + 1, ?_⟩
      simp only [Prog.run, hb, run_mono cfg _ _ _ _ r1 _ (le_max_left n m)]
      exact run_mono cfg _ _ _ _ r2 _ (le_max_right n m)
    | whileFalse td th =>
      subst hτ
      obtain ⟨b, hb⟩ := test_returns cfg hcx hd hσ hf _ hp.1 td
      have := (test_value cfg hcx hσ _ (.inr ⟨d, hd, hf, hp.1⟩) b hb).2
      obtain rfl : b = false := by
        cases b
        · rfl
        · exact absurd (this.1 rfl) th
      exact ⟨σ, hσ, hf, rfl, 1, by simp only [Prog.run, hb]⟩
  · rintro ⟨σ', -, -, rfl, N, h⟩
    exact (prog_core cfg hcx N p σ σ' hσ (.inr ⟨d, hd, hf, hp⟩) (h N le_rfl)).2.1

example : Squarefree (14 : ℤ) ∧ sample.Over 14 ∧ Good (fun _ => Surd.zero) ∧ Field 14 (fun _ => Surd.zero) := by
  refine ⟨?_, by simp [sample, Prog.Over, Test.Over, Expr.Over], good_zero, field_zero 14⟩
  rw [← Int.squarefree_natAbs]
  exact (Nat.squarefree_iff_prime_squarefree).2 fun q hq h => by
    have h1 : q ≤ 3 := by
      by_contra hh
      have := Nat.le_of_dvd (by decide) h
      have : 16 ≤ q * q := by nlinarith
      simp at *; omega
    have := hq.two_le
    interval_cases q <;> revert h <;> decide

/-- **C131** (panics) so there a program that panics would with real numbers have divided by zero, divided zero by an
irrational number or taken the root of a negative number. -/
theorem prog_panic (cfg : Cfg) (hcx : cfg.complex = false) (d : ℤ) (hd : Squarefree d) (p : Prog) (hp : p.Over d)
    (σ : Nat → Surd) (hσ : Good σ) (hf : Field d σ) (n : Nat) (e : Panic) (h : p.run cfg n σ = some (.error e)) :
    ¬ ∃ ρ, p.Runs (vals σ) ρ := by
  rintro ⟨ρ, hρ⟩
  obtain ⟨σ', -, -, -, N, hN⟩ := (prog_iff cfg hcx d hd p hp σ hσ hf ρ).1 hρ
  have h1 := hN (max n N) (le_max_right _ _)
  rw [run_mono cfg n p σ _ h _ (le_max_left _ _)] at h1
  cases h1
example : Prog.run ⟨false, true⟩ 3 (.assign 0 (.op1 .recip (.var 0))) (fun _ => Surd.zero) = some (.error .denomZero) := by
  rfl

/-- **C131** (canonical results) and two programs that end with the same number in a variable end with the same surd in it,
field by field. -/
theorem prog_canonical (cfg : Cfg) (hcx : cfg.complex = false) (d : ℤ) (hd : Squarefree d) (p q : Prog) (hp : p.Over d)
    (hq : q.Over d) (σ τ σ' τ' : Nat → Surd) (hσ : Good σ) (hf : Field d σ) (hτ : Good τ) (hg : Field d τ) (n m : Nat)
    (h : p.run cfg n σ = some (.ok σ')) (k : q.run cfg m τ = some (.ok τ')) (i j : Nat) :
    vals σ' i = vals τ' j ↔ σ' i = τ' j := by
  obtain ⟨a1, -, a2⟩ := prog_core cfg hcx n p σ σ' hσ (.inr ⟨d, hd, hf, hp⟩) h
  obtain ⟨b1, -, b2⟩ := prog_core cfg hcx m q τ τ' hτ (.inr ⟨d, hd, hg, hq⟩) k
  constructor
  · intro e
    refine Surd.stored_unique _ _ (a1 i).toNormal (b1 j).toNormal (.inr ⟨?_, ?_⟩) ?_
    · rcases a2 d hd hf hp i with h | h
      · exact .inl h
      · exact .inr (h ▸ hd)
    · rcases b2 d hd hg hq j with h | h
      · exact .inl h
      · exact .inr (h ▸ hd)
    · rw [(a1 i).valC, (b1 j).valC]
      exact congrArg _ e
  · intro e; exact congrArg Surd.val e
example : look (Prog.run ⟨false, true⟩ 2 (.assign 0 (.op2 .mul (.lit 1 1 1 5) (.lit 1 1 4 5))) fun _ => Surd.zero) 0 =
    look (Prog.run ⟨false, true⟩ 2 (.assign 0 (.op1 (.divR 2) (.lit 3 1 1 5))) fun _ => Surd.zero) 0 := by decide +kernel

/-- with real numbers there is one way to run a program -/
theorem runs_unique {p : Prog} {ρ ρ1 ρ2 : Nat → ℝ} (h1 : p.Runs ρ ρ1) (h2 : p.Runs ρ ρ2) : ρ1 = ρ2 := by
  induction h1 generalizing ρ2 with
  | skip ρ => cases h2; rfl
  | assign i e ρ h => cases h2; rfl
  | seq _ _ ih1 ih2 =>
    cases h2 with
    | seq k1 k2 => rw [← ih1 k1] at k2; exact ih2 k2
  | iteTrue _ ht _ ih =>
    cases h2 with
    | iteTrue _ _ k => exact ih k
    | iteFalse _ kt _ => exact absurd ht kt
  | iteFalse _ ht _ ih =>
    cases h2 with
    | iteTrue _ kt _ => exact absurd kt ht
    | iteFalse _ _ k => exact ih k
  | whileTrue _ ht _ _ ih1 ih2 =>
    cases h2 with
    | whileTrue _ _ k1 k2 => rw [← ih1 k1] at k2; exact ih2 k2
    | whileFalse _ kt => exact absurd ht kt
  | whileFalse _ ht =>
    cases h2 with
    | whileTrue _ kt _ _ => exact absurd kt ht
    | whileFalse _ _ => rfl

/-- **C131** refuted: with several roots `==` sends a program into the wrong branch (`√8 == -2√2` holds for the library),
and a program may panic although it finishes with real numbers: `(2+√72)/2 + (3+√72)/3`; and, with one root, so does the
division of zero by `√2`. -/
theorem prog_refuted :
    (∃ (p : Prog) (σ' : Nat → Surd), p = .ite (.equal (.lit 0 1 1 8) (.lit 0 (-2) 1 2)) (.assign 0 (.lit 1 0 1 0)) .skip ∧
      p.run ⟨false, true⟩ 5 (fun _ => Surd.zero) = some (.ok σ') ∧ ¬ p.Runs (vals fun _ => Surd.zero) (vals σ')) ∧
    (∃ p : Prog, p = .assign 0 (.op2 .add (.lit 2 1 2 72) (.lit 3 1 3 72)) ∧
      (∃ ρ, p.Runs (vals fun _ => Surd.zero) ρ) ∧
      ∀ n, p.run ⟨false, true⟩ (n + 1) (fun _ => Surd.zero) = some (.error .incompatible)) ∧
    ∃ p : Prog, p = .assign 0 (.op2 .div (.lit 0 0 1 2) (.lit 0 1 1 2)) ∧
      ∀ n, ∃ e, p.run ⟨false, true⟩ (n + 1) (fun _ => Surd.zero) = some (.error e) := by
  refine ⟨⟨_, Function.update (fun _ => Surd.zero) 0 Surd.one, rfl, ?_, ?_⟩, ⟨_, rfl, ⟨_, .assign _ _ _ ?_⟩, ?_⟩, ⟨_, rfl, ?_⟩⟩
  · have e1 : Test.run ⟨false, true⟩ (fun _ => Surd.zero) (.equal (.lit 0 1 1 8) (.lit 0 (-2) 1 2)) = .ok true := by
      decide +kernel
    have e2 : Expr.run ⟨false, true⟩ (fun _ => Surd.zero) (.lit 1 0 1 0) = .ok Surd.one := by decide +kernel
    simp only [Prog.run, e1, e2]
  · intro h
    have hne : ¬ Test.Holds (vals fun _ => Surd.zero) (.equal (.lit 0 1 1 8) (.lit 0 (-2) 1 2)) := by
      simp only [Test.Holds, Expr.real]
      push_cast
      have h1 : 0 < √(8 : ℝ) := Real.sqrt_pos.2 (by norm_num)
      have h2 : 0 < √(2 : ℝ) := Real.sqrt_pos.2 (by norm_num)
      intro h; linarith
    have h3 := runs_unique h (.iteFalse (by simp [Test.Defined, Expr.Defined]) hne (.skip _))
    have := congrFun h3 0
    simp [vals, Surd.val, Surd.one, Surd.zero, quadR] at this
  · simp [Expr.Defined, Op2.Defined]
  · intro n
    have e1 : Expr.run ⟨false, true⟩ (fun _ => Surd.zero) (.op2 .add (.lit 2 1 2 72) (.lit 3 1 3 72)) =
        .error .incompatible := by decide +kernel
    simp only [Prog.run, e1]
  · intro n
    have e1 : Expr.run ⟨false, true⟩ (fun _ => Surd.zero) (.op2 .div (.lit 0 0 1 2) (.lit 0 1 1 2)) =
        .error .denomZero := by decide +kernel
    exact ⟨.denomZero, by simp only [Prog.run, e1]⟩

/-! ### primitive integers -/

private theorem op1_fixed (x : Fx) (hc : x.checks = true) (cfg : Cfg) (o : Op1) (s z : Surd)
    (h : o.runFx x cfg s = .ok z) : o.run cfg s = .ok z := by
  cases o with
  | neg => exact (surdNeg_ref hc s).returns h
  | recip => exact (recip_ref hc cfg s).returns h
  | floor => exact (floor_ref hc cfg s).returns h
  | addI k => exact (surdAddInt_ref hc cfg s k).returns h
  | subI k => exact (surdSubInt_ref hc cfg s k).returns h
  | mulI k => exact (surdMulInt_ref hc cfg s k).returns h
  | divI k => exact (surdDivInt_ref hc cfg s k).returns h
  | addR k => exact (surdAddRat_ref hc cfg s k).returns h
  | subR k => exact (surdSubRat_ref hc cfg s k).returns h
  | mulR k => exact (surdMulRat_ref hc cfg s k).returns h
  | divR k => exact (surdDivRat_ref hc cfg s k).returns h

private theorem op2_fixed (x : Fx) (hc : x.checks = true) (cfg : Cfg) (o : Op2) (s t z : Surd)
    (h : o.runFx x cfg s t = .ok z) : o.run cfg s t = .ok z := by
  cases o with
  | add => exact (surdAdd_ref hc cfg s t).returns h
  | sub => exact (surdSub_ref hc cfg s t).returns h
  | mul => exact (surdMul_ref hc cfg s t).returns h
  | div => exact (surdDiv_ref hc cfg s t).returns h

private theorem expr_fixed (x : Fx) (hc : x.checks = true) (cfg : Cfg) (σ : Nat → Surd) (e : Expr) (s : Surd)
    (h : e.runFx x cfg σ = .ok s) : e.run cfg σ = .ok s := by
  induction e generalizing s with
  | var i => exact h
  | lit a b c r => exact (surdNew_ref hc cfg a b c r).returns h
  | op1 o e ih =>
    obtain ⟨u, h1, h2⟩ := bind_ok h
    simp only [Expr.run, ih u h1, ok_bind]
    exact op1_fixed x hc cfg o u s h2
  | op2 o e f ihe ihf =>
    obtain ⟨u, h1, h⟩ := bind_ok h
    obtain ⟨v, h2, h⟩ := bind_ok h
    simp only [Expr.run, ihe u h1, ihf v h2, ok_bind]
    exact op2_fixed x hc cfg o u v s h

private theorem test_fixed (x : Fx) (hc : x.checks = true) (cfg : Cfg) (σ : Nat → Surd) (t : Test) (b : Bool)
    (h : t.runFx x cfg σ = .ok b) : t.run cfg σ = .ok b := by
  induction t generalizing b with
  | positive e =>
    obtain ⟨u, h1, h2⟩ := bind_ok h
    simp only [Test.run, expr_fixed x hc cfg σ e u h1, ok_bind]
    exact (isPositive_ref hc cfg u).returns h2
  | negative e =>
    obtain ⟨u, h1, h2⟩ := bind_ok h
    simp only [Test.run, expr_fixed x hc cfg σ e u h1, ok_bind]
    exact (isNegative_ref hc cfg u).returns h2
  | zero e =>
    obtain ⟨u, h1, h2⟩ := bind_ok h
    simp only [Test.run, expr_fixed x hc cfg σ e u h1, ok_bind]; exact h2
  | one e =>
    obtain ⟨u, h1, h2⟩ := bind_ok h
    simp only [Test.run, expr_fixed x hc cfg σ e u h1, ok_bind]; exact h2
  | rational e =>
    obtain ⟨u, h1, h2⟩ := bind_ok h
    simp only [Test.run, expr_fixed x hc cfg σ e u h1, ok_bind]; exact h2
  | integer e =>
    obtain ⟨u, h1, h2⟩ := bind_ok h
    simp only [Test.run, expr_fixed x hc cfg σ e u h1, ok_bind]; exact h2
  | equal e f =>
    obtain ⟨u, h1, h⟩ := bind_ok h
    obtain ⟨v, h2, h⟩ := bind_ok h
    simp only [Test.run, expr_fixed x hc cfg σ e u h1, expr_fixed x hc cfg σ f v h2, ok_bind]
    exact (eq_ref hc u v).returns h
  | not t ih =>
    obtain ⟨u, h1, h2⟩ := bind_ok h
    simp only [Test.run, ih u h1, ok_bind]; exact h2
  | and t u iht ihu =>
    obtain ⟨b', h1, h2⟩ := bind_ok h
    simp only [Test.run, iht b' h1, ok_bind]
    cases b' with
    | false => exact h2
    | true => exact ihu b h2

/-- **C131** (primitive integers) With overflow checks a program over a primitive integer type that finishes ends in the
state arbitrary precision would end in; so all of the above applies to it. -/
theorem prog_fixed (x : Fx) (hc : x.checks = true) (cfg : Cfg) (n : Nat) (p : Prog) (σ σ' : Nat → Surd)
    (h : p.runFx x cfg n σ = some (.ok σ')) : p.run cfg n σ = some (.ok σ') := by
  induction n generalizing p σ σ' with
  | zero => cases h
  | succ n ih =>
    cases p with
    | skip => exact h
    | assign i e =>
      simp only [Prog.runFx] at h
      split at h
      · cases h
      · next s hs => simp only [Prog.run, expr_fixed x hc cfg σ e s hs]; exact h
    | seq p q =>
      simp only [Prog.runFx] at h
      split at h
      · next σ1 h1 => simp only [Prog.run, ih p σ σ1 h1]; exact ih q σ1 σ' h
      · next hn => exact absurd h (hn _)
    | ite t p q =>
      simp only [Prog.runFx] at h
      split at h
      · cases h
      · next ht => simp only [Prog.run, test_fixed x hc cfg σ t _ ht]; exact ih p σ σ' h
      · next ht => simp only [Prog.run, test_fixed x hc cfg σ t _ ht]; exact ih q σ σ' h
    | «while» t p =>
      simp only [Prog.runFx] at h
      split at h
      · cases h
      · next ht => simp only [Prog.run, test_fixed x hc cfg σ t _ ht]; exact h
      · next ht =>
        split at h
        · next σ1 h1 => simp only [Prog.run, test_fixed x hc cfg σ t _ ht, ih p σ σ1 h1]; exact ih _ σ1 σ' h
        · next hn => exact absurd h (hn _)

example : look (sample.runFx ⟨16, true⟩ ⟨false, true⟩ 20 fun _ => Surd.zero) 1 = some (.ok ⟨6, 0, 1, 0⟩) := by
  decide +kernel

end SProg
end NumIrr
