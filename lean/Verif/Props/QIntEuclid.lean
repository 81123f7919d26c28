/-
C52: the discriminants for which the remainder of quadratic integers is always smaller than the divisor.
-/
import Verif.Props.QIntArith

namespace NumIrr
open QInt

/-- division of an exact half rounds away from zero -/
private theorem divRemRound_half {k : ℤ} (hk : k ≠ 0) : divRemRound (2 * k) (4 * k) = .ok (1, -2 * k) := by
  have h4 : 4 * k ≠ 0 := by omega
  obtain ⟨q, r, e, h1, h2, h3⟩ := divRemRound_spec (2 * k) h4
  have hq : q = 1 := by
    rcases lt_or_gt_of_ne hk with h | h
    · rw [abs_of_neg (show 4 * k < 0 by omega)] at h2 h3
      obtain ⟨b1, b2⟩ := abs_le.mp (show |r| ≤ -(2 * k) by omega)
      have hq0 : 0 ≤ q := by by_contra hc; nlinarith
      have hq1 : q ≤ 1 := by by_contra hc; nlinarith
      rcases (show q = 0 ∨ q = 1 by omega) with e0 | e0
      · exfalso
        subst e0
        have hr : r = 2 * k := by omega
        have := h3 (by rw [hr, abs_of_neg (by omega)]; ring)
        rw [abs_of_neg (by omega)] at this
        simp at this
        omega
      · exact e0
    · rw [abs_of_pos (show 0 < 4 * k by omega)] at h2 h3
      obtain ⟨b1, b2⟩ := abs_le.mp (show |r| ≤ 2 * k by omega)
      have hq0 : 0 ≤ q := by by_contra hc; nlinarith
      have hq1 : q ≤ 1 := by by_contra hc; nlinarith
      rcases (show q = 0 ∨ q = 1 by omega) with e0 | e0
      · exfalso
        subst e0
        have hr : r = 2 * k := by omega
        have := h3 (by rw [hr, abs_of_pos (by omega)]; ring)
        rw [abs_of_pos (by omega)] at this
        simp at this
        omega
      · exact e0
  rw [e, hq]
  subst hq
  have : r = -2 * k := by linarith
  rw [this]

private theorem q_ok_bind {α β : Type} (a : α) (f : α → Res β) : ((Except.ok a : Res α) >>= f) = f a := rfl

/-- quotient and remainder of a half in the second coordinate -/
private theorem divRem_half {x y r : QCoeffs} {d k : ℤ} (hk : k ≠ 0) (hn : y.norm d = .ok (4 * k))
    (hx : x.divNumer y d = .ok (0, 2 * k)) (hm : y.mul ⟨0, -2 * k⟩ d = .ok ⟨r.a * (4 * k), r.b * (4 * k)⟩) :
    x.divRem y d = .ok (⟨0, 1⟩, r) := by
  have h4 : 4 * k ≠ 0 := by omega
  have h0 : divRemRound 0 (4 * k) = .ok (0, 0) := by simpa using divRemRound_exact 0 h4
  unfold QCoeffs.divRem
  rw [hx, q_ok_bind, hn, q_ok_bind, h0, q_ok_bind, divRemRound_half hk, q_ok_bind, hm, q_ok_bind]
  unfold QCoeffs.divInt
  rw [divRemRound_exact _ h4, q_ok_bind, divRemRound_exact _ h4]
  rfl

/-- the remainder of operands with one discriminant -/
private theorem rem_same {cfg : Cfg} {x y : QCoeffs} {d : ℤ} {p : QCoeffs × QCoeffs} (hd : d ≠ 0) (hy : y.b ≠ 0)
    (h : x.divRem y d = .ok p) : QInt.rem cfg ⟨x.a, x.b, d⟩ ⟨y.a, y.b, d⟩ = fromCoeffs cfg p.2 d := by
  have hp : reduceBinOpUnwrap cfg ⟨x.a, x.b, d⟩ ⟨y.a, y.b, d⟩ = .ok (⟨x.a, x.b, d⟩, ⟨y.a, y.b, d⟩) := by
    unfold reduceBinOpUnwrap reduceBinOp
    simp [hd, bind, Except.bind, pure, Except.pure]
  unfold QInt.rem
  rw [if_neg (by simpa [QInt.isRational] using hy), hp, q_ok_bind]
  show (QCoeffs.divRem x y d >>= _) = _
  rw [h]; rfl

/-- **C52** the discriminants -3, -2, -1, 2, 3, 5, 13 are the only ones: for every other discriminant (not a
square, not divisible by 4) there are irrational operands whose remainder is not smaller than the divisor. -/
theorem qint_euclid_iff (cfg : Cfg) (d : ℤ) (hr : cfg.complex = false → 0 ≤ d) (h4 : d % 4 ≠ 0)
    (hs : ¬ IsSquare d) :
    (∀ x y : QInt, x.Ok cfg → y.Ok cfg → x.d = d → y.d = d → (∀ q : ℚ, x.valC ≠ q) → (∀ q : ℚ, y.valC ≠ q) →
      ∃ (r : QInt) (n k : ℤ), QInt.rem cfg x y = .ok r ∧ y.norm = .ok n ∧ r.norm = .ok k ∧ |k| < |n|) ↔
    d ∈ ({-3, -2, -1, 2, 3, 5, 13} : Set ℤ) := by
  have hd0 : d ≠ 0 := by rintro rfl; exact hs ⟨0, rfl⟩
  constructor
  swap
  · intro hD x y hx hy hxd hyd hxi hyi
    obtain ⟨q, r, n, k, -, e, -, e1, e2, e3⟩ :=
      qint_euclid_partial cfg x y hx hy (by rw [hxd, hyd]) hxi hyi (by rw [hyd]; exact hD)
    exact ⟨r, n, k, e, e1, e2, e3⟩
  intro H
  by_contra hD
  simp only [Set.mem_insert_iff, Set.mem_singleton_iff, not_or] at hD
  have hok : ∀ c : QCoeffs, (⟨c.a, c.b, d⟩ : QInt).Ok cfg := fun c => ⟨fun h => absurd h hd0, fun _ => h4, fun _ => hs, hr⟩
  have hirr : ∀ c : QCoeffs, c.b ≠ 0 → ∀ q : ℚ, (⟨c.a, c.b, d⟩ : QInt).valC ≠ q := by
    intro c hc q e
    exact hc (by simpa [QInt.isRational] using (qint_isRational cfg _ (hok c)).mpr ⟨q, e⟩)
  -- a counterexample from an explicit division
  have key : ∀ (x y q r : QCoeffs) (n k : ℤ), x.b ≠ 0 → y.b ≠ 0 → r.b ≠ 0 → x.divRem y d = .ok (q, r) →
      y.norm d = .ok n → r.norm d = .ok k → |n| ≤ |k| → False := by
    intro x y q r n k hx hy hrb e hn hk hl
    obtain ⟨r', n', k', e1, e2, e3, e4⟩ := H ⟨x.a, x.b, d⟩ ⟨y.a, y.b, d⟩ (hok x) (hok y) rfl rfl (hirr x hx) (hirr y hy)
    rw [rem_same hd0 hy e, fromCoeffs_eq hr h4 hs, if_neg hrb] at e1
    have e1 := Except.ok.inj e1
    subst e1
    have e2 : n = n' := Except.ok.inj (hn.symm.trans e2)
    have e3 : k = k' := Except.ok.inj (hk.symm.trans e3)
    rw [← e2, ← e3] at e4; omega
  by_cases h1 : d % 4 = 1
  · obtain ⟨m, rfl⟩ : ∃ m, d = 4 * m + 1 := ⟨d / 4, by omega⟩
    have hm0 : m ≠ 0 := by rintro rfl; exact hs ⟨1, rfl⟩
    have hm1 : (4 * m + 1 - 1).tdiv 4 = m := by
      rw [show 4 * m + 1 - 1 = 4 * m by ring, Int.mul_tdiv_cancel_left _ (by decide)]
    have hm2 : (1 - (4 * m + 1)).tdiv 4 = -m := by
      rw [show 1 - (4 * m + 1) = 4 * -m by ring, Int.mul_tdiv_cancel_left _ (by decide)]
    have hmod : mod4d2 (4 * m + 1) = 0 := by rw [mod4d2_eq, if_neg h4, if_pos h1]
    rcases (show 4 ≤ |m| ∨ m = -2 ∨ m = -3 by
      have : m ≠ 2 := by rintro rfl; exact hs ⟨3, rfl⟩
      rcases abs_cases m with ⟨h, _⟩ | ⟨h, _⟩ <;> omega) with h | rfl | rfl
    · refine key ⟨m, 1⟩ ⟨0, 2⟩ ⟨0, 1⟩ ⟨-m, -1⟩ (4 * -m) (m * m) (by simp) (by simp) (by simp)
        (divRem_half (k := -m) (by omega) ?_ ?_ ?_) ?_ ?_ ?_
      · unfold QCoeffs.norm; rw [if_neg hd0, hmod, hm2]; simp
      · unfold QCoeffs.divNumer; rw [hmod]; simp only [hm1]; congr 2 <;> ring
      · unfold QCoeffs.mul; rw [hmod]; simp only [hm1]; congr 2 <;> ring
      · unfold QCoeffs.norm; rw [if_neg hd0, hmod, hm2]; simp
      · unfold QCoeffs.norm; rw [if_neg hd0, hmod, hm2]; simp
      · rw [abs_mul, abs_mul, abs_neg]
        have : |(4 : ℤ)| = 4 := rfl
        nlinarith
    · exact key ⟨-2, 2⟩ ⟨0, 2⟩ ⟨1, 1⟩ ⟨2, -2⟩ 8 8 (by decide) (by decide) (by decide) (by decide +kernel)
        (by decide +kernel) (by decide +kernel) (by decide)
    · exact key ⟨-3, 2⟩ ⟨0, 2⟩ ⟨1, 1⟩ ⟨3, -2⟩ 12 15 (by decide) (by decide) (by decide) (by decide +kernel)
        (by decide +kernel) (by decide +kernel) (by decide)
  · have hmod : mod4d2 d = 1 := by rw [mod4d2_eq, if_neg h4, if_neg h1]
    have hd4 : 4 ≤ |d| := by
      have : d ≠ 1 := by rintro rfl; exact hs ⟨1, rfl⟩
      rcases abs_cases d with ⟨h, _⟩ | ⟨h, _⟩ <;> omega
    refine key ⟨d, 1⟩ ⟨2, 2⟩ ⟨0, 1⟩ ⟨-d, -1⟩ (4 * (1 - d)) (d * d - d) (by simp) (by simp) (by simp)
      (divRem_half (k := 1 - d) (by omega) ?_ ?_ ?_) ?_ ?_ ?_
    · unfold QCoeffs.norm; rw [if_neg hd0, hmod]; simp only; congr 1; ring
    · unfold QCoeffs.divNumer; rw [hmod]; simp only; congr 2 <;> ring
    · unfold QCoeffs.mul; rw [hmod]; simp only; congr 2 <;> ring
    · unfold QCoeffs.norm; rw [if_neg hd0, hmod]; simp only; congr 1; ring
    · unfold QCoeffs.norm; rw [if_neg hd0, hmod]; simp only; congr 1; ring
    · rw [show d * d - d = -(d * (1 - d)) by ring, abs_neg, abs_mul, abs_mul]
      have : |(4 : ℤ)| = 4 := rfl
      nlinarith [abs_nonneg (1 - d)]

/-- `d = 17`, real quadratic and norm-Euclidean, but the rounding of the library is not good enough:
`(4 + ω) % 2ω` has norm 16, as `2ω`. -/
example : QInt.rem ⟨false, true⟩ ⟨4, 1, 17⟩ ⟨0, 2, 17⟩ = .ok ⟨-4, -1, 17⟩ ∧
    QInt.norm ⟨-4, -1, 17⟩ = .ok 16 ∧ QInt.norm ⟨0, 2, 17⟩ = .ok (-16) := by decide +kernel

end NumIrr
