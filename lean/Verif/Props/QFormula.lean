/-
C124: whole calculations with quadratic and Gaussian integers.
-/
import Verif.Props.QIntLaws
import Verif.Props.FixedQInt
import Verif.Spec.QFormula

namespace NumIrr
namespace QFormula
open QInt

private theorem coords (r : ℤ) (f : QFormula) : ∃ p q : ℤ, ∀ ρ : ℂ, ρ * ρ = r → f.val ρ = p + q * ρ := by
  induction f with
  | lit a b => exact ⟨a, b, fun ρ _ => rfl⟩
  | neg f ih =>
    obtain ⟨p, q, h⟩ := ih
    exact ⟨-p, -q, fun ρ e => by simp only [val, h ρ e]; push_cast; ring⟩
  | conj f ih =>
    obtain ⟨p, q, h⟩ := ih
    exact ⟨p, -q, fun ρ e => by simp only [val, h (-ρ) (by rw [neg_mul_neg, e])]; push_cast; ring⟩
  | add f g ihf ihg =>
    obtain ⟨p, q, h⟩ := ihf
    obtain ⟨p', q', h'⟩ := ihg
    exact ⟨p + p', q + q', fun ρ e => by simp only [val, h ρ e, h' ρ e]; push_cast; ring⟩
  | sub f g ihf ihg =>
    obtain ⟨p, q, h⟩ := ihf
    obtain ⟨p', q', h'⟩ := ihg
    exact ⟨p - p', q - q', fun ρ e => by simp only [val, h ρ e, h' ρ e]; push_cast; ring⟩
  | mul f g ihf ihg =>
    obtain ⟨p, q, h⟩ := ihf
    obtain ⟨p', q', h'⟩ := ihg
    exact ⟨p * p' + q * q' * r, p * q' + q * p', fun ρ e => by
      simp only [val, h ρ e, h' ρ e]; push_cast; linear_combination (q * q' : ℂ) * e⟩

private theorem four_pow_unique (i j : ℕ) (u v : ℤ) (e : (4:ℤ) ^ i * u = 4 ^ j * v) (hu : u % 4 ≠ 0) (hv : v % 4 ≠ 0) :
    u = v := by
  wlog hij : i ≤ j generalizing i j u v with H
  · exact (H j i v u e.symm hv hu (by omega)).symm
  obtain ⟨l, rfl⟩ := Nat.exists_eq_add_of_le hij
  have h5 : u = 4 ^ l * v := by
    have : (4:ℤ) ^ i ≠ 0 := by positivity
    apply mul_left_cancel₀ this; rw [e, pow_add]; ring
  cases l with
  | zero => simpa using h5
  | succ l =>
    exfalso; apply hu; rw [h5, pow_succ, show (4:ℤ) ^ l * 4 * v = 4 * (4 ^ l * v) by ring]
    exact Int.mul_emod_right 4 _

/-- the constructor puts all numbers over one root into one ring -/
private theorem new_inRing {cfg : Cfg} {r D : ℤ} {k : ℕ} (hs : ¬ IsSquare r) (hD : r = 4 ^ k * D) (h4 : D % 4 ≠ 0)
    {a b : ℤ} {t : QInt} (h : QInt.new cfg a b r = .ok t) : t.InRing cfg D := by
  have hr := (qint_new_returns_iff cfg a b r).1 ⟨t, h⟩
  obtain ⟨k', m, h1, h2, h3, e⟩ := new_eq cfg a b r (by rcases hr with hr | hr; exact .inl hr; exact .inr hr.2.2)
  have hm : m = D := four_pow_unique k' k m D (h1.symm.trans hD) h2 h4
  subst hm
  have hms : ¬ IsSquare m := fun hh => hs (by rw [h1]; exact (isSquare_four_pow_mul k' m).mpr hh)
  rw [e] at h
  have hreal : cfg.complex = false → 0 ≤ m := by
    intro hc
    by_contra hn
    rw [fromCoeffs_neg hc (not_le.mp hn)] at h; cases h
  suffices hh : t.Stored ∧ (t.b ≠ 0 → t.d = m) from ⟨fromCoeffs_ok h, hh.1, hh.2⟩
  rw [fromCoeffs_eq hreal h4 hms] at h
  have h := Except.ok.inj h
  subst h
  unfold QInt.Stored
  generalize (if m % 4 = 1 then (⟨a - b * 2 ^ k', b * 2 ^ k' + b * 2 ^ k'⟩ : QCoeffs) else ⟨a, b * 2 ^ k'⟩) = c
  split
  · exact ⟨fun _ => rfl, fun h => absurd rfl h⟩
  · next hb => exact ⟨fun h => absurd h hb, fun _ => rfl⟩

private theorem conj_inRing {cfg : Cfg} {D : ℤ} {x : QInt} (hx : x.InRing cfg D) :
    ∃ c, x.conj = .ok c ∧ c.InRing cfg D ∧ ((x.d = 0 ∧ c = x) ∨ (x.d ≠ 0 ∧
      ∀ p q : ℚ, x.valC = p + q * rootC x.d → c.valC = p - q * rootC x.d)) := by
  obtain ⟨c, h1, -, h3, h4⟩ := qint_conj cfg x hx.ok
  have hb : c.b = 0 ↔ x.b = 0 := by
    unfold QInt.conj QCoeffs.conj at h1
    by_cases hd : x.d = 0
    · rw [if_pos hd] at h1; cases h1; exact Iff.rfl
    · rw [if_neg hd, mod4d2_eq, if_neg (hx.ok.mod4 hd)] at h1
      split at h1
      · cases h1; simp [mk', coeffs]
      · cases h1; simp [mk', coeffs]
      · cases h1
  refine ⟨c, h1, ⟨hx.ok.of_d h3 hb.2, fun h => by rw [h3]; exact hx.stored (hb.1 h),
    fun h => by rw [h3]; exact hx.discr fun h' => h (hb.2 h')⟩, ?_⟩
  by_cases hd : x.d = 0
  · left
    refine ⟨hd, ?_⟩
    unfold QInt.conj QCoeffs.conj at h1
    rw [if_pos hd] at h1; cases h1; rfl
  · exact .inr ⟨hd, fun p q h => h4 p q h hd⟩

/-- the part of a root that stays after the factors 4 of a positive one are removed -/
theorem exists_discr (r : ℤ) (h : 0 < r ∨ r % 4 ≠ 0) : ∃ (k : ℕ) (D : ℤ), r = 4 ^ k * D ∧ D % 4 ≠ 0 := by
  obtain ⟨k, m, h1, h2, -⟩ := new_eq ⟨true, true⟩ 0 0 r h
  exact ⟨k, m, h1, h2⟩

theorem run_ring (cfg : Cfg) {r D : ℤ} {k : ℕ} (hs : ¬ IsSquare r) (hD : r = 4 ^ k * D) (h4 : D % 4 ≠ 0)
    (hr : 0 < r ∨ (cfg.complex = true ∧ r < 0 ∧ r % 4 ≠ 0)) (f : QFormula) :
    ∃ t, f.run cfg r = .ok t ∧ t.InRing cfg D ∧ t.valC = f.val (rootC r) := by
  have hρ : rootC r = 2 ^ k * rootC D := by rw [hD, rootC_four_pow]
  induction f with
  | lit a b =>
    obtain ⟨t, h⟩ := (qint_new_returns_iff cfg a b r).2 hr
    exact ⟨t, h, new_inRing hs hD h4 h, new_value hs h⟩
  | neg f ih =>
    obtain ⟨t, h1, h2, h3⟩ := ih
    obtain ⟨h5, h6⟩ := (qint_ring_ops cfg D t t h2 h2).2.2.2.1
    exact ⟨t.neg, by simp only [run, h1]; rfl, h5, by rw [h6, h3]; rfl⟩
  | conj f ih =>
    obtain ⟨t, h1, h2, h3⟩ := ih
    obtain ⟨c, k1, k2, k3⟩ := conj_inRing h2
    refine ⟨c, by simp only [run, h1]; exact k1, k2, ?_⟩
    obtain ⟨p, q, hpq⟩ := coords r f
    have e1 := hpq (rootC r) (rootC_mul_self r)
    have e2 : (conj f).val (rootC r) = p + q * -rootC r := hpq (-rootC r) (by rw [neg_mul_neg, rootC_mul_self])
    rw [e2]
    rcases k3 with ⟨hd, rfl⟩ | ⟨hd, k3⟩
    · have hb : c.valC = (c.a : ℤ) := by simp [valC, h2.ok.rational hd]
      have : q = 0 := by
        have := (root_coeff_eq hs (x := p) (y := q) (x' := c.a) (y' := 0) (by push_cast; rw [← e1, ← h3, hb]; ring)).2
        exact_mod_cast this
      rw [h3, e1, this]; ring
    · by_cases hb : t.b = 0
      · exact absurd (h2.stored hb) hd
      have hdD := h2.discr hb
      have := k3 p (q * 2 ^ k) (by rw [h3, e1, hρ, hdD]; push_cast; ring)
      rw [this, hρ, hdD]; push_cast; ring
  | add f g ihf ihg =>
    obtain ⟨s, h1, h2, h3⟩ := ihf
    obtain ⟨t, k1, k2, k3⟩ := ihg
    obtain ⟨z, z1, z2, z3⟩ := (qint_ring_ops cfg D s t h2 k2).1
    exact ⟨z, by simp only [run, h1, k1]; exact z1, z2, by rw [z3, h3, k3]; rfl⟩
  | sub f g ihf ihg =>
    obtain ⟨s, h1, h2, h3⟩ := ihf
    obtain ⟨t, k1, k2, k3⟩ := ihg
    obtain ⟨z, z1, z2, z3⟩ := (qint_ring_ops cfg D s t h2 k2).2.1
    exact ⟨z, by simp only [run, h1, k1]; exact z1, z2, by rw [z3, h3, k3]; rfl⟩
  | mul f g ihf ihg =>
    obtain ⟨s, h1, h2, h3⟩ := ihf
    obtain ⟨t, k1, k2, k3⟩ := ihg
    obtain ⟨z, z1, z2, z3⟩ := (qint_ring_ops cfg D s t h2 k2).2.2.1
    exact ⟨z, by simp only [run, h1, k1]; exact z1, z2, by rw [z3, h3, k3]; rfl⟩

/-- **C124** partial: for a root which is not a square and for which the constructor works at all, every calculation
returns the number its formula denotes.
Missing from the full claim: square roots (`qformula_refuted`) and roots for which the constructor panics (C49). -/
theorem qformula_partial (cfg : Cfg) (r : ℤ) (hs : ¬ IsSquare r)
    (hr : 0 < r ∨ (cfg.complex = true ∧ r < 0 ∧ r % 4 ≠ 0)) (f : QFormula) :
    ∃ t, f.run cfg r = .ok t ∧ t.valC = f.val (rootC r) := by
  obtain ⟨k, D, hD, h4⟩ := exists_discr r (by rcases hr with hr | hr; exact .inl hr; exact .inr hr.2.2)
  obtain ⟨t, h1, -, h3⟩ := run_ring cfg hs hD h4 hr f
  exact ⟨t, h1, h3⟩

/-- **C124** and two calculations return the same fields exactly if they denote the same number. -/
theorem qformula_same_partial (cfg : Cfg) (r : ℤ) (hs : ¬ IsSquare r)
    (hr : 0 < r ∨ (cfg.complex = true ∧ r < 0 ∧ r % 4 ≠ 0)) (f g : QFormula) :
    f.run cfg r = g.run cfg r ↔ f.val (rootC r) = g.val (rootC r) := by
  obtain ⟨k, D, hD, h4⟩ := exists_discr r (by rcases hr with hr | hr; exact .inl hr; exact .inr hr.2.2)
  obtain ⟨s, h1, h2, h3⟩ := run_ring cfg hs hD h4 hr f
  obtain ⟨t, k1, k2, k3⟩ := run_ring cfg hs hD h4 hr g
  rw [h1, k1, ← h3, ← k3]
  constructor
  · intro h; cases h; rfl
  · intro h; rw [inRing_inj h2 k2 h]

/-- `(1 + √20)·conj(1 + √20) - 3√20` -/
def sample : QFormula := .sub (.mul (.lit 1 1) (.conj (.lit 1 1))) (.lit 0 3)

example : ¬ IsSquare (20 : ℤ) ∧ sample.run ⟨false, true⟩ 20 = .ok ⟨-13, -12, 5⟩ :=
  ⟨by decide +kernel, by decide +kernel⟩

/-- **C124** is false for squares: over the root 9, `1 + √9` is calculated as 6, and `√9 - √9·√9` as -20 instead of -6. -/
theorem qformula_refuted :
    (∃ t, (lit 1 1).run ⟨false, true⟩ 9 = .ok t ∧ t.valC ≠ (lit 1 1).val (rootC 9)) ∧
    ∃ t, (sub (lit 0 1) (mul (lit 0 1) (lit 0 1))).run ⟨false, true⟩ 9 = .ok t ∧
      t.valC ≠ (sub (lit 0 1) (mul (lit 0 1) (lit 0 1))).val (rootC 9) := by
  have h9 : rootC 9 = 3 := by
    have := rootC_square (k := 3) (by norm_num)
    norm_num at this; exact this
  refine ⟨⟨⟨6, 0, 0⟩, by decide +kernel, ?_⟩, ⟨⟨-20, 0, 0⟩, by decide +kernel, ?_⟩⟩ <;>
    · simp only [val, h9, valC]; norm_num

/-! ### primitive integers -/

private theorem bind_ref {α β : Type} {r a : Res α} {f g : α → Res β} (h : Refines r a) (k : ∀ v, Refines (f v) (g v)) :
    Refines (r >>= f) (a >>= g) := by
  rcases h with h | h
  · rw [h]
    cases a with
    | ok v => exact k v
    | error e => exact .inl rfl
  · rw [h]; exact .inr rfl

/-- **C124** Over primitive integers with overflow checks a calculation does what it does with arbitrary precision, or
panics with an overflow; for any root. -/
theorem qformula_fixed (x : Fx) (hc : x.checks = true) (cfg : Cfg) (r : ℤ) (f : QFormula) :
    Refines (f.runFx x cfg r) (f.run cfg r) := by
  have A := fun u v => fixed_qint_arith_refines x hc cfg u v 0
  have U := (fixed_qint_unary_refines x hc cfg)
  induction f with
  | lit a b => exact U.1 a b r
  | neg f ih => exact bind_ref ih fun v => (U.2.2 v).2.2.2
  | conj f ih => exact bind_ref ih fun v => (U.2.2 v).1
  | add f g ihf ihg => exact bind_ref ihf fun u => bind_ref ihg fun v => (A u v).1
  | sub f g ihf ihg => exact bind_ref ihf fun u => bind_ref ihg fun v => (A u v).2.1
  | mul f g ihf ihg => exact bind_ref ihf fun u => bind_ref ihg fun v => (A u v).2.2.1

/-- the sample over `i8`, and an overflow there -/
example : sample.runFx ⟨8, true⟩ ⟨false, true⟩ 20 = .ok ⟨-13, -12, 5⟩ ∧
    (mul (lit 9 2) (lit 9 2)).runFx ⟨8, true⟩ ⟨false, true⟩ 20 = .error .overflow := by decide +kernel

/-! ### Gaussian integers -/

/-- **C124** With `GaussianInt` every calculation returns the number its formula denotes for `√r = i`; the result
determines that number. -/
theorem gformula (f g : QFormula) :
    (∃ t, f.runG = .ok t ∧ t.valC = f.val Complex.I) ∧ (f.runG = g.runG ↔ f.val Complex.I = g.val Complex.I) := by
  have key : ∀ f : QFormula, ∃ t, f.runG = .ok t ∧ t.valC = f.val Complex.I := by
    intro f
    induction f with
    | lit a b => exact ⟨_, rfl, rfl⟩
    | neg f ih =>
      obtain ⟨t, h1, h2⟩ := ih
      refine ⟨_, by simp only [runG, h1]; rfl, ?_⟩
      rw [(gint_ring_ops ⟨0, 0⟩ t).2.1, h2]; simp [val, GInt.valC]
    | conj f ih =>
      obtain ⟨t, h1, h2⟩ := ih
      refine ⟨_, by simp only [runG, h1]; rfl, ?_⟩
      obtain ⟨p, q, h⟩ := coords (-1) f
      have e1 := h Complex.I (by rw [Complex.I_mul_I]; norm_num)
      have e2 : (conj f).val Complex.I = p + q * -Complex.I :=
        h (-Complex.I) (by rw [neg_mul_neg, Complex.I_mul_I]; norm_num)
      rw [(gint_ring_ops t t).2.2.2.1, h2, e1, e2]
      simp
    | add f g ihf ihg =>
      obtain ⟨s, h1, h2⟩ := ihf
      obtain ⟨t, k1, k2⟩ := ihg
      exact ⟨_, by simp only [runG, h1, k1]; rfl, by rw [(gint_ring_ops s t).1, h2, k2]; rfl⟩
    | sub f g ihf ihg =>
      obtain ⟨s, h1, h2⟩ := ihf
      obtain ⟨t, k1, k2⟩ := ihg
      exact ⟨_, by simp only [runG, h1, k1]; rfl, by rw [(gint_ring_ops s t).2.1, h2, k2]; rfl⟩
    | mul f g ihf ihg =>
      obtain ⟨s, h1, h2⟩ := ihf
      obtain ⟨t, k1, k2⟩ := ihg
      obtain ⟨m, m1, m2⟩ := (gint_ring_ops s t).2.2.1
      exact ⟨m, by simp only [runG, h1, k1]; exact m1, by rw [m2, h2, k2]; rfl⟩
  refine ⟨key f, ?_⟩
  obtain ⟨s, h1, h2⟩ := key f
  obtain ⟨t, k1, k2⟩ := key g
  rw [h1, k1, ← h2, ← k2]
  constructor
  · intro h; cases h; rfl
  · intro h; rw [gint_valC_inj s t h]

example : sample.runG = .ok ⟨2, -3⟩ := by decide +kernel

end QFormula
end NumIrr
