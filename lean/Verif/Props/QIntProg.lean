/-
C149: programs with branches and loops over quadratic integers.
-/
import Verif.Props.ExtEuclid
import Verif.Spec.QIntProg

namespace NumIrr
namespace QProg
open QInt

private theorem bind_ok' {α β : Type} {r : Res α} {f : α → Res β} {v : β} (h : (r >>= f) = .ok v) :
    ∃ u, r = .ok u ∧ f u = .ok v := by
  cases r with
  | error e => cases h
  | ok u => exact ⟨u, rfl, h⟩

/-- numbers of the ring; with `m` also stored in the documented way -/
structure Good (cfg : Cfg) (D : ℤ) (m : Bool) (x : QInt) : Prop where
  ok : x.Ok cfg
  discr : x.b ≠ 0 → x.d = D
  stored : m = true → x.Stored

variable {cfg : Cfg} {D : ℤ} {m : Bool}

private theorem Good.inRing {x : QInt} (h : Good cfg D true x) : x.InRing cfg D := ⟨h.ok, h.stored rfl, h.discr⟩

theorem good_of_inRing {x : QInt} (h : x.InRing cfg D) : Good cfg D m x := ⟨h.ok, h.discr, fun _ => h.stored⟩

private theorem good_fine {x y z : QInt} (hx : Good cfg D m x) (hy : Good cfg D m y) (h : Fine cfg x y z) : Good cfg D m z := by
  refine ⟨h.1, fun hb => ?_, fun hm => h.2.1 (hx.stored hm) (hy.stored hm)⟩
  rcases h.2.2 hb with ⟨h1, h2⟩ | ⟨h1, h2⟩
  · rw [h2, hx.discr h1]
  · rw [h2, hy.discr h1]

private theorem good_returns {x y : QInt} (hx : Good cfg D m x) (hy : Good cfg D m y) :
    (∃ q : ℚ, x.valC = q) ∨ (∃ q : ℚ, y.valC = q) ∨ x.Compatible y := by
  by_cases h1 : x.b = 0
  · exact .inl ((qint_isRational cfg x hx.ok).1 ((isRational_iff x).2 h1))
  by_cases h2 : y.b = 0
  · exact .inr (.inl ((qint_isRational cfg y hy.ok).1 ((isRational_iff y).2 h2)))
  exact .inr (.inr ⟨1, .inl (by rw [hx.discr h1, hy.discr h2]; ring)⟩)

/-! ### Coordinates and rounding -/

private theorem coords_root (hs : ¬ IsSquare D) {z : ℂ} {u v : ℚ} (h : z = u + v * rootC D) :
    coords (rootC D) z = (u, v) := by
  have hex : ∃ p : ℚ × ℚ, z = p.1 + p.2 * rootC D := ⟨(u, v), h⟩
  unfold coords
  rw [dif_pos hex]
  have := root_coeff_eq hs (h.symm.trans hex.choose_spec)
  exact Prod.ext this.1.symm this.2.symm

private theorem coords_omega (hs : ¬ IsSquare D) {z : ℂ} {u v : ℚ} (h : z = u + v * omegaC D) :
    coords (omegaC D) z = (u, v) := by
  have hex : ∃ p : ℚ × ℚ, z = p.1 + p.2 * omegaC D := ⟨(u, v), h⟩
  unfold coords
  rw [dif_pos hex]
  have := omega_coeff_eq hs (h.symm.trans hex.choose_spec)
  exact Prod.ext this.1.symm this.2.symm

private theorem nearest_round (q : ℚ) : RoundAway q (nearest q) := by
  unfold nearest RoundAway
  split
  · next h =>
    have h1 := Int.floor_le (q + 1 / 2)
    have h2 := Int.lt_floor_add_one (q + 1 / 2)
    generalize ⌊q + 1 / 2⌋ = k at *
    refine ⟨abs_le.2 ⟨by linarith, by linarith⟩, fun he => ?_⟩
    have hk : q - k = -(1 / 2) := by
      rcases (abs_eq (by norm_num)).1 he with h | h
      · linarith
      · exact h
    rw [abs_of_nonneg h, lt_abs]; left; linarith
  · next h =>
    have h1 := Int.le_ceil (q - 1 / 2)
    have h2 := Int.ceil_lt_add_one (q - 1 / 2)
    generalize ⌈q - 1 / 2⌉ = k at *
    have h : q < 0 := not_le.1 h
    refine ⟨abs_le.2 ⟨by linarith, by linarith⟩, fun he => ?_⟩
    have hk : q - k = 1 / 2 := by
      rcases (abs_eq (by norm_num)).1 he with h | h
      · exact h
      · linarith
    rw [abs_of_neg h, lt_abs]; right; linarith

theorem nearest_eq {q : ℚ} {k : ℤ} (h : RoundAway q k) : nearest q = k :=
  roundAway_unique q _ _ (nearest_round q) h

/-! ### Single operations -/

/-- the discriminant can be used -/
structure Usable (cfg : Cfg) (D : ℤ) : Prop where
  mod4 : D % 4 ≠ 0
  notSquare : ¬ IsSquare D
  real : cfg.complex = false → 0 ≤ D

private theorem val_good {x : QInt} (hx : Good cfg D m x) : x.valC = ((x.a : ℚ) : ℂ) + ((x.b : ℚ) : ℂ) * omegaC D := by
  by_cases h : x.b = 0
  · rw [valC_rational h, h]; simp
  · rw [valC, hx.discr h]; push_cast; rfl

theorem op1_spec (hD : Usable cfg D) (o : Op1) {x : QInt} (hx : Good cfg D m x) :
    ∃ z, o.run x = .ok z ∧ Good cfg D m z ∧ z.valC = o.num D x.valC := by
  cases o with
  | neg =>
    refine ⟨_, rfl, ⟨hx.ok.of_d rfl fun h => by simp [QInt.neg, h], fun h => hx.discr fun h0 => h (by simp [QInt.neg, h0]),
      fun hm h => hx.stored hm (by simpa [QInt.neg] using h)⟩, (qint_int_ops x 0).1⟩
  | conj =>
    obtain ⟨c, h1, -, h3, h4⟩ := qint_conj cfg x hx.ok
    have hcb : c.b = 0 ↔ x.b = 0 := by
      have h := h1
      unfold QInt.conj QCoeffs.conj at h
      by_cases hd : x.d = 0
      · rw [if_pos hd] at h; cases h; rfl
      · rw [if_neg hd] at h
        split at h <;> cases h <;> simp [mk', coeffs]
    have hg : Good cfg D m c := ⟨conj_ok hx.ok h1, fun h => by rw [h3]; exact hx.discr fun h0 => h (hcb.2 h0),
      fun hm h => by rw [h3]; exact hx.stored hm (hcb.1 h)⟩
    refine ⟨c, h1, hg, ?_⟩
    by_cases hb : x.b = 0
    · -- a rational number is its own conjugate
      have hca : c.a = x.a := by
        have h := h1
        unfold QInt.conj QCoeffs.conj at h
        by_cases hd : x.d = 0
        · rw [if_pos hd] at h; cases h; rfl
        · rw [if_neg hd] at h
          split at h <;> cases h <;> simp [mk', coeffs, hb]
      have e : x.valC = ((x.a : ℚ) : ℂ) + ((0 : ℚ) : ℂ) * rootC D := by rw [valC_rational hb]; simp
      show _ = ((coords (rootC D) x.valC).1 : ℂ) - (coords (rootC D) x.valC).2 * rootC D
      rw [coords_root hD.notSquare e, valC_rational (hcb.2 hb), hca]; simp
    · have hd := hx.discr hb
      have hd0 : x.d ≠ 0 := by rw [hd]; exact not_isSquare_ne_zero hD.notSquare
      obtain ⟨p, q, e⟩ : ∃ p q : ℚ, x.valC = p + q * rootC x.d := by
        unfold valC omegaC
        split
        · exact ⟨x.a + x.b / 2, x.b / 2, by push_cast; ring⟩
        · exact ⟨x.a, x.b, by push_cast; ring⟩
      rw [h4 p q e hd0]
      rw [hd] at e ⊢
      show _ = ((coords (rootC D) x.valC).1 : ℂ) - (coords (rootC D) x.valC).2 * rootC D
      rw [coords_root hD.notSquare e]
  | addI k =>
    exact ⟨_, rfl, ⟨hx.ok.of_d rfl id, hx.discr, hx.stored⟩, by
      simp [Op1.num, QInt.addInt, QCoeffs.addInt, mk', coeffs, valC]; ring⟩
  | subI k =>
    exact ⟨_, rfl, ⟨hx.ok.of_d rfl id, hx.discr, hx.stored⟩, by
      simp [Op1.num, QInt.subInt, QCoeffs.subInt, mk', coeffs, valC]; ring⟩
  | mulI k =>
    obtain ⟨h1, h2, h3⟩ := mulInt_fine hx.ok k
    refine ⟨_, rfl, ⟨h1, fun h => by rw [(h3 h).2]; exact hx.discr (h3 h).1, fun hm => h2 (hx.stored hm)⟩, ?_⟩
    unfold QInt.mulInt
    split
    · next h => simp [Op1.num, QInt.zero, valC, h]
    · simp [Op1.num, QCoeffs.mulInt, mk', coeffs, valC]; ring

/-- the number as it should be stored -/
private def norm0 (x : QInt) : QInt := if x.b = 0 then ⟨x.a, 0, 0⟩ else x

private theorem norm0_ring {x : QInt} (hx : Good cfg D m x) : (norm0 x).InRing cfg D ∧ (norm0 x).valC = x.valC := by
  unfold norm0
  split
  · next h =>
    exact ⟨⟨⟨by simp, by simp, by simp, by simp⟩, fun _ => rfl, fun h => absurd rfl h⟩,
      by rw [valC_rational h, valC_rational (x := ⟨x.a, 0, 0⟩) rfl]⟩
  · next h => exact ⟨⟨hx.ok, fun h' => absurd h' h, hx.discr⟩, rfl⟩

private theorem div_spec {x y : QInt} (hx : Good cfg D m x) (hy : Good cfg D m y) (h0 : y.valC ≠ 0) :
    ∃ q, QInt.div cfg x y = .ok q ∧ Good cfg D false q ∧ ∃ (u v : ℚ) (m n : ℤ),
      x.valC / y.valC = u + v * omegaC D ∧ RoundAway u m ∧ RoundAway v n ∧ q.valC = m + n * omegaC D := by
  obtain ⟨x1, x2⟩ := norm0_ring hx
  obtain ⟨y1, y2⟩ := norm0_ring hy
  obtain ⟨q, h1, h2, h3, h4⟩ := div_ring x1 y1 (by rw [y2]; exact h0)
  rw [x2, y2] at h4
  by_cases hyb : y.b = 0
  · have hyr : y.isRational = true := (isRational_iff y).2 hyb
    have e : QInt.div cfg x y = x.divInt y.a := by unfold QInt.div; rw [if_pos hyr]
    have e' : QInt.div cfg (norm0 x) (norm0 y) = (norm0 x).divInt y.a := by
      unfold QInt.div norm0; rw [if_pos hyb, if_pos ((isRational_iff _).2 rfl)]
    rw [e'] at h1
    rw [e]
    by_cases hxb : x.b = 0
    · have : norm0 x = ⟨x.a, 0, 0⟩ := by unfold norm0; rw [if_pos hxb]
      rw [this] at h1
      obtain ⟨c, hc, h1⟩ := bind_ok' h1
      have hc' : x.coeffs.divInt y.a = .ok c := by rw [← hc]; unfold coeffs; rw [hxb]
      have hq : x.divInt y.a = .ok (mk' c x.d) := by unfold QInt.divInt; rw [hc']; rfl
      cases h1
      have hcb : c.b = 0 := h2.rational rfl
      refine ⟨_, hq, ⟨divInt_ok hx.ok hq, fun h => absurd hcb h, fun h => by cases h⟩, ?_⟩
      rw [valC_rational (x := mk' c x.d) hcb]
      rw [valC_rational (x := mk' c 0) hcb] at h4
      exact h4
    · have : norm0 x = x := by unfold norm0; rw [if_neg hxb]
      rw [this] at h1
      exact ⟨q, h1, ⟨h2, h3, fun h => by cases h⟩, h4⟩
  · have hy' : norm0 y = y := by unfold norm0; rw [if_neg hyb]
    have hyr : ¬ y.isRational = true := by rwa [isRational_iff]
    rw [hy'] at h1
    refine ⟨q, ?_, ⟨h2, h3, fun h => by cases h⟩, h4⟩
    by_cases hxb : x.b = 0
    · rw [← h1]
      unfold QInt.div norm0
      rw [if_pos hxb, if_neg hyr, if_neg hyr, if_pos ((isRational_iff x).2 hxb), if_pos ((isRational_iff _).2 rfl)]
      unfold coeffs; rw [hxb]
    · have : norm0 x = x := by unfold norm0; rw [if_neg hxb]
      rwa [this] at h1

theorem zero_iff {x : QInt} (hx : Good cfg D m x) : x.isZero = true ↔ x.valC = 0 := by
  simp only [QInt.isZero, Bool.and_eq_true, decide_eq_true_eq]
  constructor
  · rintro ⟨h1, h2⟩; simp [valC, h1, h2]
  · intro h
    have hb : x.b = 0 := (isRational_iff x).1 ((qint_isRational cfg x hx.ok).2 ⟨0, by rw [h]; simp⟩)
    rw [valC_rational hb] at h
    exact ⟨by exact_mod_cast h, hb⟩

private theorem div_zero {x y : QInt} (hy : Good cfg D m y) (h : y.valC = 0) : QInt.div cfg x y = .error .divZero := by
  obtain ⟨ha, hb⟩ : y.a = 0 ∧ y.b = 0 := by simpa [QInt.isZero] using (zero_iff hy).2 h
  unfold QInt.div
  rw [if_pos ((isRational_iff y).2 hb), ha]
  rfl

theorem op2_spec (hD : Usable cfg D) (o : Op2) (ho : m = true → o ≠ .div) {x y : QInt} (hx : Good cfg D m x)
    (hy : Good cfg D m y) :
    (o.Defined y.valC → ∃ z, o.run cfg x y = .ok z ∧ Good cfg D m z ∧ z.valC = o.num D x.valC y.valC) ∧
    (¬ o.Defined y.valC → o.run cfg x y = .error .divZero) := by
  cases o with
  | add =>
    refine ⟨fun _ => ?_, fun h => absurd trivial h⟩
    obtain ⟨z, hz⟩ := (qint_add_returns_iff cfg x y hx.ok hy.ok).2 (good_returns hx hy)
    exact ⟨z, hz, good_fine hx hy (add_fine hx.ok hy.ok hz), qint_add_value cfg x y z hx.ok hy.ok hz⟩
  | sub =>
    refine ⟨fun _ => ?_, fun h => absurd trivial h⟩
    obtain ⟨z, hz⟩ := (qint_sub_returns_iff cfg x y hx.ok hy.ok).2 (good_returns hx hy)
    exact ⟨z, hz, good_fine hx hy (sub_fine hx.ok hy.ok hz), qint_sub_value cfg x y z hx.ok hy.ok hz⟩
  | mul =>
    refine ⟨fun _ => ?_, fun h => absurd trivial h⟩
    obtain ⟨z, hz⟩ := (qint_mul_returns_iff cfg x y hx.ok hy.ok).2 (good_returns hx hy)
    exact ⟨z, hz, good_fine hx hy (mul_fine hx.ok hy.ok hz), qint_mul_value cfg x y z hx.ok hy.ok hz⟩
  | div =>
    obtain rfl : m = false := by
      cases m with
      | false => rfl
      | true => exact absurd rfl (ho rfl)
    refine ⟨fun h => ?_, fun h => div_zero hy (not_not.1 h)⟩
    obtain ⟨q, h1, h2, u, v, k, l, e1, e2, e3, e4⟩ := div_spec hx hy h
    refine ⟨q, h1, h2, ?_⟩
    show q.valC = (nearest (coords (omegaC D) (x.valC / y.valC)).1 : ℂ) +
      nearest (coords (omegaC D) (x.valC / y.valC)).2 * omegaC D
    rw [coords_omega hD.notSquare e1, nearest_eq e2, nearest_eq e3, e4]

/-! ### Expressions and tests -/

/-- all variables -/
def GoodAll (cfg : Cfg) (D : ℤ) (m : Bool) (σ : Nat → QInt) : Prop := ∀ i, Good cfg D m (σ i)

/-- the numbers in the variables -/
noncomputable def vals (σ : Nat → QInt) : Nat → ℂ := fun i => (σ i).valC

theorem lit_spec (hD : Usable cfg D) (a b : ℤ) :
    ∃ z, QInt.fromCoeffs cfg ⟨a, b⟩ D = .ok z ∧ Good cfg D m z ∧ z.valC = a + b * omegaC D := by
  have e := fromCoeffs_eq (cfg := cfg) (c := ⟨a, b⟩) hD.real hD.mod4 hD.notSquare
  refine ⟨_, e, ⟨fromCoeffs_ok e, ?_, fun _ => ?_⟩, ?_⟩
  · split
    · exact fun h => absurd rfl h
    · exact fun _ => rfl
  · unfold QInt.Stored
    split
    · exact fun _ => rfl
    · next h => exact fun h' => absurd h' h
  · split
    · next h =>
      have h : b = 0 := h
      simp [valC, h]
    · rfl

private theorem expr_spec (hD : Usable cfg D) {σ : Nat → QInt} (hσ : GoodAll cfg D m σ) (e : Expr) (he : m = true → e.NoDiv) :
    (e.Defined D (vals σ) → ∃ z, e.run cfg D σ = .ok z ∧ Good cfg D m z ∧ z.valC = e.num D (vals σ)) ∧
    (¬ e.Defined D (vals σ) → e.run cfg D σ = .error .divZero) := by
  induction e with
  | var i => exact ⟨fun _ => ⟨_, rfl, hσ i, rfl⟩, fun h => absurd trivial h⟩
  | lit a b => exact ⟨fun _ => lit_spec hD a b, fun h => absurd trivial h⟩
  | op1 o e ih =>
    obtain ⟨i1, i2⟩ := ih he
    refine ⟨fun h => ?_, fun h => ?_⟩
    · obtain ⟨z, h1, h2, h3⟩ := i1 h
      obtain ⟨w, k1, k2, k3⟩ := op1_spec hD o h2
      exact ⟨w, by simp only [Expr.run, h1, Surd.ok_bind, k1], k2, by rw [k3, h3]; rfl⟩
    · simp only [Expr.run, i2 h]; rfl
  | op2 o e f ihe ihf =>
    obtain ⟨i1, i2⟩ := ihe fun hm => (he hm).2.1
    obtain ⟨j1, j2⟩ := ihf fun hm => (he hm).2.2
    refine ⟨fun h => ?_, fun h => ?_⟩
    · obtain ⟨x, h1, h2, h3⟩ := i1 h.1
      obtain ⟨y, k1, k2, k3⟩ := j1 h.2.1
      obtain ⟨z, l1, l2, l3⟩ := (op2_spec hD o (fun hm => (he hm).1) h2 k2).1 (by rw [k3]; exact h.2.2)
      exact ⟨z, by simp only [Expr.run, h1, Surd.ok_bind, k1, l1], l2, by rw [l3, h3, k3]; rfl⟩
    · by_cases d1 : e.Defined D (vals σ)
      · obtain ⟨x, h1, h2, -⟩ := i1 d1
        by_cases d2 : f.Defined D (vals σ)
        · obtain ⟨y, k1, k2, k3⟩ := j1 d2
          simp only [Expr.run, h1, Surd.ok_bind, k1]
          exact (op2_spec hD o (fun hm => (he hm).1) h2 k2).2 fun h' => h ⟨d1, d2, by rw [← k3]; exact h'⟩
        · simp only [Expr.run, h1, Surd.ok_bind, j2 d2]; rfl
      · simp only [Expr.run, i2 d1]; rfl

/-- results stay in the ring -/
theorem expr_good (hD : Usable cfg D) {σ : Nat → QInt} (hσ : GoodAll cfg D false σ) (e : Expr) {z : QInt}
    (h : e.run cfg D σ = .ok z) : Good cfg D false z := by
  obtain ⟨h1, h2⟩ := expr_spec hD hσ e fun h => by cases h
  by_cases hd : e.Defined D (vals σ)
  · obtain ⟨w, k1, k2, -⟩ := h1 hd
    rw [h] at k1; cases k1; exact k2
  · rw [h2 hd] at h; cases h

private theorem eq_spec {x y : QInt} (hx : x.InRing cfg D) (hy : y.InRing cfg D) :
    ∃ b, QInt.eq x y = .ok b ∧ (b = true ↔ x.valC = y.valC) := by
  have key : x.valC = y.valC ↔ x = y := ⟨inRing_inj hx hy, fun h => by rw [h]⟩
  unfold QInt.eq
  by_cases hd : x.d = y.d
  · rw [if_pos hd]
    refine ⟨_, rfl, ?_⟩
    rw [decide_eq_true_eq, key]
    constructor
    · rintro ⟨h1, h2⟩; cases x; cases y; simp_all
    · rintro rfl; exact ⟨rfl, rfl⟩
  · rw [if_neg hd]
    have h0 : x.d = 0 ∨ y.d = 0 := by
      by_cases h1 : x.b = 0
      · exact .inl (hx.stored h1)
      by_cases h2 : y.b = 0
      · exact .inr (hy.stored h2)
      exact absurd ((hx.discr h1).trans (hy.discr h2).symm) hd
    rw [if_pos h0]
    exact ⟨false, rfl, by rw [key]; simp; rintro rfl; exact hd rfl⟩

private theorem test_spec (hD : Usable cfg D) {σ : Nat → QInt} (hσ : GoodAll cfg D m σ) (t : Test)
    (ht : (m = true → t.NoDiv) ∧ (m = false → t.NoEq)) :
    (t.Defined D (vals σ) → ∃ b, t.run cfg D σ = .ok b ∧ (b = true ↔ t.Holds D (vals σ))) ∧
    (¬ t.Defined D (vals σ) → t.run cfg D σ = .error .divZero) := by
  induction t with
  | zero e =>
    obtain ⟨i1, i2⟩ := expr_spec hD hσ e ht.1
    refine ⟨fun h => ?_, fun h => ?_⟩
    · obtain ⟨z, h1, h2, h3⟩ := i1 h
      exact ⟨_, by simp only [Test.run, h1, Surd.ok_bind]; rfl, by rw [zero_iff h2, h3]; rfl⟩
    · simp only [Test.run, i2 h]; rfl
  | rational e =>
    obtain ⟨i1, i2⟩ := expr_spec hD hσ e ht.1
    refine ⟨fun h => ?_, fun h => ?_⟩
    · obtain ⟨z, h1, h2, h3⟩ := i1 h
      exact ⟨_, by simp only [Test.run, h1, Surd.ok_bind]; rfl, by rw [qint_isRational cfg z h2.ok, h3]; rfl⟩
    · simp only [Test.run, i2 h]; rfl
  | equal e f =>
    obtain rfl : m = true := by
      cases m with
      | true => rfl
      | false => exact (ht.2 rfl).elim
    obtain ⟨i1, i2⟩ := expr_spec hD hσ e fun hm => (ht.1 hm).1
    obtain ⟨j1, j2⟩ := expr_spec hD hσ f fun hm => (ht.1 hm).2
    refine ⟨fun h => ?_, fun h => ?_⟩
    · obtain ⟨x, h1, h2, h3⟩ := i1 h.1
      obtain ⟨y, k1, k2, k3⟩ := j1 h.2
      obtain ⟨b, l1, l2⟩ := eq_spec h2.inRing k2.inRing
      exact ⟨b, by simp only [Test.run, h1, Surd.ok_bind, k1, l1], by rw [l2, h3, k3]; rfl⟩
    · by_cases d1 : e.Defined D (vals σ)
      · obtain ⟨x, h1, h2, -⟩ := i1 d1
        simp only [Test.run, h1, Surd.ok_bind, j2 fun d2 => h ⟨d1, d2⟩]; rfl
      · simp only [Test.run, i2 d1]; rfl
  | not t ih =>
    obtain ⟨i1, i2⟩ := ih ht
    refine ⟨fun h => ?_, fun h => ?_⟩
    · obtain ⟨b, h1, h2⟩ := i1 h
      refine ⟨!b, by simp only [Test.run, h1, Surd.ok_bind]; rfl, ?_⟩
      show _ ↔ ¬ t.Holds D (vals σ)
      rw [← h2]; cases b <;> simp
    · simp only [Test.run, i2 h]; rfl
  | and t u iht ihu =>
    obtain ⟨i1, i2⟩ := iht ⟨fun hm => (ht.1 hm).1, fun hm => (ht.2 hm).1⟩
    obtain ⟨j1, j2⟩ := ihu ⟨fun hm => (ht.1 hm).2, fun hm => (ht.2 hm).2⟩
    refine ⟨fun h => ?_, fun h => ?_⟩
    · obtain ⟨b, h1, h2⟩ := i1 h.1
      cases b with
      | false =>
        exact ⟨false, by simp only [Test.run, h1, Surd.ok_bind]; rfl, by
          simp only [Bool.false_eq_true, false_iff] at h2 ⊢; exact fun h' => h2 h'.1⟩
      | true =>
        obtain ⟨c, k1, k2⟩ := j1 (h.2 (h2.1 rfl))
        exact ⟨c, by simp only [Test.run, h1, Surd.ok_bind, k1]; rfl, by
          rw [k2]; exact ⟨fun h' => ⟨h2.1 rfl, h'⟩, fun h' => h'.2⟩⟩
    · by_cases d1 : t.Defined D (vals σ)
      · obtain ⟨c, h1, h2⟩ := i1 d1
        have hh : t.Holds D (vals σ) ∧ ¬ u.Defined D (vals σ) := by
          by_contra hn
          exact h ⟨d1, fun ht => by by_contra hu; exact hn ⟨ht, hu⟩⟩
        obtain rfl := h2.2 hh.1
        simp only [Test.run, h1, Surd.ok_bind]
        exact j2 hh.2
      · simp only [Test.run, i2 d1]; rfl

/-! ### Programs -/

private theorem vals_update (σ : Nat → QInt) (i : Nat) (s : QInt) :
    vals (Function.update σ i s) = Function.update (vals σ) i s.valC := by
  funext j
  by_cases h : j = i
  · subst h; simp [vals]
  · simp [vals, h]

private theorem good_update {σ : Nat → QInt} (h : GoodAll cfg D m σ) (i : Nat) {s : QInt} (hs : Good cfg D m s) :
    GoodAll cfg D m (Function.update σ i s) := by
  intro j
  by_cases e : j = i
  · subst e; simpa using hs
  · simpa [e] using h j

/-- the programs allowed: without division if numbers are to be stored as documented, else without `==` -/
private def Fits (m : Bool) (p : Prog) : Prop := (m = true → p.NoDiv) ∧ (m = false → p.NoEq)

private theorem prog_forward (hD : Usable cfg D) (n : Nat) (p : Prog) (σ σ' : Nat → QInt) (hσ : GoodAll cfg D m σ)
    (hp : Fits m p) (h : p.run cfg D n σ = some (.ok σ')) : GoodAll cfg D m σ' ∧ p.Runs D (vals σ) (vals σ') := by
  induction n generalizing p σ σ' with
  | zero => cases h
  | succ n ih =>
    cases p with
    | skip => cases h; exact ⟨hσ, .skip _⟩
    | assign i e =>
      simp only [Prog.run] at h
      split at h
      · cases h
      · next s hs =>
        cases h
        obtain ⟨i1, i2⟩ := expr_spec hD hσ e hp.1
        have hd : e.Defined D (vals σ) := by by_contra hn; rw [i2 hn] at hs; cases hs
        obtain ⟨z, h1, h2, h3⟩ := i1 hd
        rw [hs] at h1; cases h1
        refine ⟨good_update hσ i h2, ?_⟩
        rw [vals_update, h3]
        exact .assign i e _ hd
    | seq p q =>
      simp only [Prog.run] at h
      split at h
      · next σ1 h1 =>
        obtain ⟨g1, r1⟩ := ih p σ σ1 hσ ⟨fun hm => (hp.1 hm).1, fun hm => (hp.2 hm).1⟩ h1
        obtain ⟨g2, r2⟩ := ih q σ1 σ' g1 ⟨fun hm => (hp.1 hm).2, fun hm => (hp.2 hm).2⟩ h
        exact ⟨g2, .seq r1 r2⟩
      · next hn => exact absurd h (hn _)
    | ite t p q =>
      simp only [Prog.run] at h
      obtain ⟨i1, i2⟩ := test_spec hD hσ t ⟨fun hm => (hp.1 hm).1, fun hm => (hp.2 hm).1⟩
      split at h
      · cases h
      · next ht =>
        have hd : t.Defined D (vals σ) := by by_contra hn; rw [i2 hn] at ht; cases ht
        obtain ⟨b, h1, h2⟩ := i1 hd
        rw [ht] at h1; cases h1
        obtain ⟨g1, r1⟩ := ih p σ σ' hσ ⟨fun hm => (hp.1 hm).2.1, fun hm => (hp.2 hm).2.1⟩ h
        exact ⟨g1, .iteTrue hd (h2.1 rfl) r1⟩
      · next ht =>
        have hd : t.Defined D (vals σ) := by by_contra hn; rw [i2 hn] at ht; cases ht
        obtain ⟨b, h1, h2⟩ := i1 hd
        rw [ht] at h1; cases h1
        obtain ⟨g1, r1⟩ := ih q σ σ' hσ ⟨fun hm => (hp.1 hm).2.2, fun hm => (hp.2 hm).2.2⟩ h
        exact ⟨g1, .iteFalse hd (fun hh => by simpa using h2.2 hh) r1⟩
    | «while» t p =>
      simp only [Prog.run] at h
      obtain ⟨i1, i2⟩ := test_spec hD hσ t ⟨fun hm => (hp.1 hm).1, fun hm => (hp.2 hm).1⟩
      split at h
      · cases h
      · next ht =>
        cases h
        have hd : t.Defined D (vals σ) := by by_contra hn; rw [i2 hn] at ht; cases ht
        obtain ⟨b, h1, h2⟩ := i1 hd
        rw [ht] at h1; cases h1
        exact ⟨hσ, .whileFalse hd (fun hh => by simpa using h2.2 hh)⟩
      · next ht =>
        have hd : t.Defined D (vals σ) := by by_contra hn; rw [i2 hn] at ht; cases ht
        obtain ⟨b, h1, h2⟩ := i1 hd
        rw [ht] at h1; cases h1
        split at h
        · next σ1 h1 =>
          obtain ⟨g1, r1⟩ := ih p σ σ1 hσ ⟨fun hm => (hp.1 hm).2, fun hm => (hp.2 hm).2⟩ h1
          obtain ⟨g2, r2⟩ := ih (.while t p) σ1 σ' g1 hp h
          exact ⟨g2, .whileTrue hd (h2.1 rfl) r1 r2⟩
        · next hn => exact absurd h (hn _)

theorem run_mono (cfg : Cfg) (D : ℤ) (n : Nat) (p : Prog) (σ : Nat → QInt) (r : Res (Nat → QInt))
    (h : p.run cfg D n σ = some r) (m : Nat) (hm : n ≤ m) : p.run cfg D m σ = some r := by
  induction n generalizing p σ r m with
  | zero => cases h
  | succ n ih =>
    obtain ⟨m, rfl⟩ : ∃ k, m = k + 1 := ⟨m - 1, by omega⟩
    have hm : n ≤ m := by omega
    cases p with
    | skip => exact h
    | assign i e => exact h
    | seq p q =>
      simp only [Prog.run] at h ⊢
      cases h1 : p.run cfg D n σ with
      | none => rw [h1] at h; cases h
      | some r1 =>
        rw [h1] at h; rw [ih p σ r1 h1 m hm]
        cases r1 with
        | error e => exact h
        | ok σ1 => exact ih q σ1 r h m hm
    | ite t p q =>
      simp only [Prog.run] at h ⊢
      cases ht : t.run cfg D σ with
      | error e => rw [ht] at h; exact h
      | ok b =>
        rw [ht] at h
        cases b with
        | true => exact ih p σ r h m hm
        | false => exact ih q σ r h m hm
    | «while» t p =>
      simp only [Prog.run] at h ⊢
      cases ht : t.run cfg D σ with
      | error e => rw [ht] at h; exact h
      | ok b =>
        rw [ht] at h
        cases b with
        | false => exact h
        | true =>
          simp only at h ⊢
          cases h1 : p.run cfg D n σ with
          | none => rw [h1] at h; cases h
          | some r1 =>
            rw [h1] at h; rw [ih p σ r1 h1 m hm]
            cases r1 with
            | error e => exact h
            | ok σ1 => exact ih _ σ1 r h m hm

private theorem prog_backward (hD : Usable cfg D) (p : Prog) (hp : Fits m p) (σ : Nat → QInt) (hσ : GoodAll cfg D m σ)
    (ρ : Nat → ℂ) (h : p.Runs D (vals σ) ρ) :
    ∃ σ', GoodAll cfg D m σ' ∧ vals σ' = ρ ∧ ∃ n, p.run cfg D n σ = some (.ok σ') := by
  obtain ⟨τ, hτ⟩ : ∃ τ, τ = vals σ := ⟨_, rfl⟩
  rw [← hτ] at h
  induction h generalizing σ with
  | skip τ => exact ⟨σ, hσ, hτ.symm, 1, rfl⟩
  | assign i e τ h =>
    subst hτ
    obtain ⟨s, h1, h2, h3⟩ := (expr_spec hD hσ e hp.1).1 h
    exact ⟨_, good_update hσ i h2, by rw [vals_update, h3], 1, by simp only [Prog.run, h1]⟩
  | seq h1 h2 ih1 ih2 =>
    obtain ⟨σ1, g1, v1, n, r1⟩ := ih1 ⟨fun hm => (hp.1 hm).1, fun hm => (hp.2 hm).1⟩ σ hσ hτ
    obtain ⟨σ2, g2, v2, k, r2⟩ := ih2 ⟨fun hm => (hp.1 hm).2, fun hm => (hp.2 hm).2⟩ σ1 g1 v1.symm
    refine ⟨σ2, g2, v2, max n k + 1, ?_⟩
    simp only [Prog.run, run_mono cfg D _ _ _ _ r1 _ (le_max_left n k)]
    exact run_mono cfg D _ _ _ _ r2 _ (le_max_right n k)
  | iteTrue td th h ih =>
    subst hτ
    obtain ⟨b, hb, hb'⟩ := (test_spec hD hσ _ ⟨fun hm => (hp.1 hm).1, fun hm => (hp.2 hm).1⟩).1 td
    obtain rfl := hb'.2 th
    obtain ⟨σ1, g1, v1, n, r1⟩ := ih ⟨fun hm => (hp.1 hm).2.1, fun hm => (hp.2 hm).2.1⟩ σ hσ rfl
    exact ⟨σ1, g1, v1, n + 1, by simp only [Prog.run, hb, r1]⟩
  | iteFalse td th h ih =>
    subst hτ
    obtain ⟨b, hb, hb'⟩ := (test_spec hD hσ _ ⟨fun hm => (hp.1 hm).1, fun hm => (hp.2 hm).1⟩).1 td
    obtain rfl : b = false := by cases b with
      | false => rfl
      | true => exact absurd (hb'.1 rfl) th
    obtain ⟨σ1, g1, v1, n, r1⟩ := ih ⟨fun hm => (hp.1 hm).2.2, fun hm => (hp.2 hm).2.2⟩ σ hσ rfl
    exact ⟨σ1, g1, v1, n + 1, by simp only [Prog.run, hb, r1]⟩
  | whileTrue td th h1 h2 ih1 ih2 =>
    subst hτ
    obtain ⟨b, hb, hb'⟩ := (test_spec hD hσ _ ⟨fun hm => (hp.1 hm).1, fun hm => (hp.2 hm).1⟩).1 td
    obtain rfl := hb'.2 th
    obtain ⟨σ1, g1, v1, n, r1⟩ := ih1 ⟨fun hm => (hp.1 hm).2, fun hm => (hp.2 hm).2⟩ σ hσ rfl
    obtain ⟨σ2, g2, v2, k, r2⟩ := ih2 hp σ1 g1 v1.symm
    refine ⟨σ2, g2, v2, max n k + 1, ?_⟩
    simp only [Prog.run, hb, run_mono cfg D _ _ _ _ r1 _ (le_max_left n k)]
    exact run_mono cfg D _ _ _ _ r2 _ (le_max_right n k)
  | whileFalse td th =>
    subst hτ
    obtain ⟨b, hb, hb'⟩ := (test_spec hD hσ _ ⟨fun hm => (hp.1 hm).1, fun hm => (hp.2 hm).1⟩).1 td
    obtain rfl : b = false := by cases b with
      | false => rfl
      | true => exact absurd (hb'.1 rfl) th
    exact ⟨σ, hσ, rfl, 1, by simp only [Prog.run, hb]⟩

/-- **C149** partial: a program over one ring that does not use both `/` and `==` finishes exactly if it would finish with
complex numbers (and quotients rounded in both coordinates), with the same numbers in all variables.
Missing from the full claim: programs that use both (`qint_prog_refuted`). -/
theorem qint_prog_partial (cfg : Cfg) (D : ℤ) (hD : Usable cfg D) (p : Prog) (hp : p.NoDiv ∨ p.NoEq) (σ : Nat → QInt)
    (hσ : ∀ i, (σ i).InRing cfg D) (ρ : Nat → ℂ) :
    p.Runs D (vals σ) ρ ↔ ∃ σ', vals σ' = ρ ∧ ∃ N, ∀ n, N ≤ n → p.run cfg D n σ = some (.ok σ') := by
  obtain ⟨m, hm⟩ : ∃ m, Fits m p := by
    rcases hp with h | h
    · exact ⟨true, fun _ => h, fun h' => absurd h' (by simp)⟩
    · exact ⟨false, fun h' => absurd h' (by simp), fun _ => h⟩
  have hg : GoodAll cfg D m σ := fun i => good_of_inRing (hσ i)
  constructor
  · intro h
    obtain ⟨σ', -, h1, n, h2⟩ := prog_backward hD p hm σ hg ρ h
    exact ⟨σ', h1, n, fun k hk => run_mono cfg D n p σ _ h2 k hk⟩
  · rintro ⟨σ', rfl, N, h⟩
    exact (prog_forward hD N p σ σ' hg hm (h N le_rfl)).2

/-- **C149** Programs without `/` leave every number stored in the documented way. -/
theorem qint_prog_stored (cfg : Cfg) (D : ℤ) (hD : Usable cfg D) (p : Prog) (hp : p.NoDiv) (σ σ' : Nat → QInt)
    (hσ : ∀ i, (σ i).InRing cfg D) (n : Nat) (h : p.run cfg D n σ = some (.ok σ')) : ∀ i, (σ' i).InRing cfg D :=
  fun i => ((prog_forward (m := true) hD n p σ σ' (fun i => good_of_inRing (hσ i))
    ⟨fun _ => hp, fun h => by cases h⟩ h).1 i).inRing

/-- **C149** partial: a program over one ring that does not use both `/` and `==` panics only by dividing by zero.
Missing from the full claim: programs that use both. -/
theorem qint_prog_panic_partial (cfg : Cfg) (D : ℤ) (hD : Usable cfg D) (p : Prog) (hp : p.NoDiv ∨ p.NoEq) (σ : Nat → QInt)
    (hσ : ∀ i, (σ i).InRing cfg D) (n : Nat) (e : Panic) (h : p.run cfg D n σ = some (.error e)) : e = .divZero := by
  obtain ⟨m, hm⟩ : ∃ m, Fits m p := by
    rcases hp with h | h
    · exact ⟨true, fun _ => h, fun h' => absurd h' (by simp)⟩
    · exact ⟨false, fun h' => absurd h' (by simp), fun _ => h⟩
  have hg : GoodAll cfg D m σ := fun i => good_of_inRing (hσ i)
  clear hp hσ
  induction n generalizing p σ with
  | zero => cases h
  | succ n ih =>
    cases p with
    | skip => cases h
    | assign i x =>
      simp only [Prog.run] at h
      split at h
      · next hx =>
        cases h
        obtain ⟨i1, i2⟩ := expr_spec hD hg x hm.1
        by_cases hd : x.Defined D (vals σ)
        · obtain ⟨z, h1, -⟩ := i1 hd
          rw [h1] at hx; cases hx
        · rw [i2 hd] at hx; cases hx; rfl
      · cases h
    | seq p q =>
      have m1 : Fits m p := ⟨fun h => (hm.1 h).1, fun h => (hm.2 h).1⟩
      simp only [Prog.run] at h
      split at h
      · next σ1 h1 =>
        exact ih q σ1 h ⟨fun h => (hm.1 h).2, fun h => (hm.2 h).2⟩ (prog_forward hD n p σ σ1 hg m1 h1).1
      · exact ih p σ h m1 hg
    | ite t p q =>
      simp only [Prog.run] at h
      split at h
      · next hx =>
        cases h
        obtain ⟨i1, i2⟩ := test_spec hD hg t ⟨fun h => (hm.1 h).1, fun h => (hm.2 h).1⟩
        by_cases hd : t.Defined D (vals σ)
        · obtain ⟨z, h1, -⟩ := i1 hd
          rw [h1] at hx; cases hx
        · rw [i2 hd] at hx; cases hx; rfl
      · exact ih p σ h ⟨fun h => (hm.1 h).2.1, fun h => (hm.2 h).2.1⟩ hg
      · exact ih q σ h ⟨fun h => (hm.1 h).2.2, fun h => (hm.2 h).2.2⟩ hg
    | «while» t p =>
      have m1 : Fits m p := ⟨fun h => (hm.1 h).2, fun h => (hm.2 h).2⟩
      simp only [Prog.run] at h
      split at h
      · next hx =>
        cases h
        obtain ⟨i1, i2⟩ := test_spec hD hg t ⟨fun h => (hm.1 h).1, fun h => (hm.2 h).1⟩
        by_cases hd : t.Defined D (vals σ)
        · obtain ⟨z, h1, -⟩ := i1 hd
          rw [h1] at hx; cases hx
        · rw [i2 hd] at hx; cases hx; rfl
      · cases h
      · split at h
        · next σ1 h1 => exact ih _ σ1 h hm (prog_forward hD n p σ σ1 hg m1 h1).1
        · exact ih p σ h m1 hg

/-- what is in variable `i` in the end -/
def look (r : Option (Res (Nat → QInt))) (i : Nat) : Option (Res QInt) := r.map (·.map (· i))

/-- Euclid's algorithm: variables 0 and 1, the next remainder in variable 2 -/
def gcdProg : Prog :=
  .while (.not (.zero (.var 1)))
    (.seq (.assign 2 (.op2 .sub (.var 0) (.op2 .mul (.op2 .div (.var 0) (.var 1)) (.var 1))))
      (.seq (.assign 0 (.var 1)) (.assign 1 (.var 2))))

/-- the program for `5 + ω` and `8 + ω` over the discriminant -3 -/
def gcdOf : Prog := .seq (.assign 0 (.lit 5 1)) (.seq (.assign 1 (.lit 8 1)) gcdProg)

/-- the order of the unit `-ω²` over the discriminant -3, by multiplying until the power is 1 -/
def orderProg : Prog :=
  .seq (.assign 0 (.lit 1 (-1))) (.seq (.assign 1 (.lit 1 0)) (.while (.not (.equal (.var 0) (.lit 1 0)))
    (.seq (.assign 0 (.op2 .mul (.var 0) (.lit 1 (-1)))) (.assign 1 (.op1 (.addI 1) (.var 1))))))

example : gcdOf.NoEq ∧ look (gcdOf.run ⟨true, true⟩ (-3) 20 fun _ => QInt.zero) 0 = some (.ok ⟨-1, 1, -3⟩) ∧ orderProg.NoDiv ∧
    look (orderProg.run ⟨true, true⟩ (-3) 20 fun _ => QInt.zero) 1 = some (.ok ⟨6, 0, 0⟩) ∧ Usable ⟨true, true⟩ (-3) ∧
    QInt.zero.InRing ⟨true, true⟩ (-3) :=
  ⟨by simp [gcdOf, gcdProg, Prog.NoEq, Test.NoEq], by decide +kernel, by simp [orderProg, Prog.NoDiv, Test.NoDiv, Expr.NoDiv],
    by decide +kernel, ⟨by decide, not_isSquare_of_neg (by norm_num), by simp⟩, ⟨zero_ok, fun _ => rfl, fun h => absurd rfl h⟩⟩

example : look ((Prog.assign 0 (.op2 .div (.lit 3 1) (.op2 .sub (.lit 0 1) (.var 1)))).run ⟨true, true⟩ (-3) 1
    fun _ => ⟨0, 1, -3⟩) 0 = some (.error .divZero) := by decide +kernel

/-- **C149** is false with both `/` and `==`: `(5 + √2)/3` is rounded to 2, but stored in such a way that it is not `== 2`,
and the program takes the wrong branch. -/
theorem qint_prog_refuted (debug : Bool) :
    let p : Prog := .ite (.equal (.op2 .div (.lit 5 1) (.lit 3 0)) (.lit 2 0)) (.assign 0 (.lit 1 0)) .skip
    look (p.run ⟨false, debug⟩ 2 9 fun _ => QInt.zero) 0 = some (.ok ⟨0, 0, 0⟩) ∧
    ∀ ρ, p.Runs 2 (vals fun _ => QInt.zero) ρ → ρ 0 = 1 := by
  refine ⟨by cases debug <;> decide +kernel, fun ρ h => ?_⟩
  have h2 : ¬ IsSquare (2 : ℤ) := by decide +kernel
  have key : Expr.num 2 (vals fun _ => QInt.zero) (.op2 .div (.lit 5 1) (.lit 3 0)) = 2 := by
    have e : ((5 : ℤ) + (1 : ℤ) * omegaC 2) / ((3 : ℤ) + (0 : ℤ) * omegaC 2) =
        ((5 / 3 : ℚ) : ℂ) + ((1 / 3 : ℚ) : ℂ) * omegaC 2 := by push_cast; field_simp; ring
    show ((nearest (coords (omegaC 2) _).1 : ℤ) : ℂ) + (nearest (coords (omegaC 2) _).2 : ℤ) * omegaC 2 = 2
    simp only [Expr.num]
    rw [coords_omega h2 e]
    have n1 : nearest (5 / 3) = 2 := by norm_num [nearest, Int.floor_eq_iff]
    have n2 : nearest (1 / 3) = 0 := by norm_num [nearest, Int.floor_eq_iff]
    rw [n1, n2]; simp
  have hh : Test.Holds 2 (vals fun _ => QInt.zero) (.equal (.op2 .div (.lit 5 1) (.lit 3 0)) (.lit 2 0)) := by
    show Expr.num _ _ _ = Expr.num _ _ _
    rw [key]; simp [Expr.num]
  cases h with
  | iteTrue hd ht h =>
    cases h with
    | assign i e ρ h => simp [Expr.num]
  | iteFalse hd ht h => exact absurd hh ht

end QProg
end NumIrr
