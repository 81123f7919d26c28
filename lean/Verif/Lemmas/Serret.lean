/-
Serret's theorem: two irrational numbers are equivalent exactly if their continued fractions agree from some place on.
-/
import Verif.Lemmas.HomoReg
import Verif.Spec.Equivalent
import Verif.Spec.Galois

namespace NumIrr

/-! ### equal complete quotients -/

/-- `x` and `y` have a complete quotient in common -/
def Meet (x y : ℝ) : Prop := ∃ m k : ℕ, tails x m = tails y k

theorem Meet.refl (x : ℝ) : Meet x x := ⟨0, 0, rfl⟩

theorem Meet.symm {x y : ℝ} (h : Meet x y) : Meet y x := by
  obtain ⟨m, k, e⟩ := h
  exact ⟨k, m, e.symm⟩

theorem tails_add_eq {x y : ℝ} {m k : ℕ} (h : tails x m = tails y k) (n : ℕ) : tails x (m + n) = tails y (k + n) := by
  rw [← tails_tails, ← tails_tails, h]

theorem Meet.trans {x y z : ℝ} (h : Meet x y) (h' : Meet y z) : Meet x z := by
  obtain ⟨m, k, e⟩ := h
  obtain ⟨m', k', e'⟩ := h'
  refine ⟨m + m', k' + k, ?_⟩
  rw [tails_add_eq e m', Nat.add_comm k m', tails_add_eq e' k]

theorem Meet.sameTail {x y : ℝ} (h : Meet x y) : SameTail x y := by
  obtain ⟨m, k, e⟩ := h
  exact ⟨m, k, fun n => by rw [tails_add_eq e]⟩

theorem SameTail.meet {x y : ℝ} (hx : Irrational x) (hy : Irrational y) (h : SameTail x y) : Meet x y := by
  obtain ⟨m, k, e⟩ := h
  refine ⟨m, k, ?_⟩
  rw [← regc_lim (tails_irrational hx m), ← regc_lim (tails_irrational hy k)]
  congr 1
  funext n
  rw [regc_tails, regc_tails]
  exact e n

theorem Meet.add_int (x : ℝ) (n : ℤ) : Meet (x + n) x := by
  refine ⟨1, 1, ?_⟩
  simp only [tails, Int.floor_add_intCast]
  push_cast
  congr 1
  ring

theorem tails_one {x : ℝ} {n : ℤ} {t : ℝ} (ht : 1 < t) (h : x = n + 1 / t) : tails x 1 = t := by
  have h1 : 0 < 1 / t := by positivity
  have h2 : 1 / t < 1 := by rw [div_lt_one (by linarith)]; exact ht
  have hf : ⌊x⌋ = n := by rw [Int.floor_eq_iff, h]; constructor <;> linarith
  rw [tails_succ, show tails x 0 = x from rfl, hf, h, add_sub_cancel_left, one_div_one_div]

theorem Meet.neg {x : ℝ} (hx : Irrational x) : Meet (-x) x := by
  have ht := tails_gt_one hx 0
  have he := tails_eq x 0
  rw [show tails x 0 = x from rfl, Nat.zero_add] at he
  rw [Nat.zero_add] at ht
  have hi := tails_irrational hx 1
  generalize hg : tails x 1 = t at ht he hi
  have hn2 : t ≠ 2 := fun e => hi ⟨2, by simp [e]⟩
  rcases lt_or_gt_of_ne hn2 with h2 | h2
  · -- `1 < t < 2`: `-x = -n-1 + (t-1)/t`, `t/(t-1) = 1 + 1/(t-1)`
    have hs : 0 < t - 1 := by linarith
    have e1 : tails (-x) 1 = t / (t - 1) := by
      refine tails_one (n := -⌊x⌋ - 1) (by rw [lt_div_iff₀ hs]; linarith) ?_
      have hx' : x = ⌊x⌋ + 1 / t := he
      generalize (⌊x⌋ : ℤ) = n at hx'
      rw [hx']
      push_cast
      have : t - 1 ≠ 0 := by linarith
      field_simp
      ring
    have hf : ⌊t⌋ = 1 := by rw [Int.floor_eq_iff]; constructor <;> push_cast <;> linarith
    have e2 : tails x 2 = 1 / (t - 1) := by
      rw [tails_succ, hg, hf]
      push_cast
      rfl
    have hm := Meet.add_int (tails x 2) 1
    have e3 : tails (-x) 1 = tails x 2 + (1 : ℤ) := by
      rw [e1, e2]
      push_cast
      field_simp
      ring
    rw [← e3] at hm
    obtain ⟨m, k, e⟩ := hm
    rw [tails_tails, tails_tails] at e
    exact ⟨_, _, e⟩
  · -- `2 < t`: `t/(t-1) = 1 + 1/(t-1)` with `t-1 > 1`
    have hs : 1 < t - 1 := by linarith
    have e1 : tails (-x) 1 = t / (t - 1) := by
      refine tails_one (n := -⌊x⌋ - 1) (by rw [lt_div_iff₀ (by linarith)]; linarith) ?_
      have hx' : x = ⌊x⌋ + 1 / t := he
      generalize (⌊x⌋ : ℤ) = n at hx'
      rw [hx']
      push_cast
      have : t - 1 ≠ 0 := by linarith
      field_simp
      ring
    have e2 : tails (tails (-x) 1) 1 = t - 1 := by
      refine tails_one (n := 1) hs ?_
      rw [e1]
      have : t - 1 ≠ 0 := by linarith
      push_cast
      field_simp
      ring
    have hm := Meet.add_int (tails x 1) (-1)
    rw [hg, show t + ((-1 : ℤ) : ℝ) = t - 1 by push_cast; ring, ← e2, ← hg] at hm
    obtain ⟨m, k, e⟩ := hm
    rw [tails_tails, tails_tails, tails_tails] at e
    exact ⟨_, _, e⟩

theorem Meet.inv {x : ℝ} (hx : Irrational x) : Meet (1 / x) x := by
  have pos : ∀ {x : ℝ}, Irrational x → 0 < x → Meet (1 / x) x := by
    intro x hx h0
    rcases lt_or_gt_of_ne (fun e => hx ⟨1, by simp [e]⟩ : x ≠ 1) with h | h
    · refine ⟨0, 1, (tails_one (n := 0) (t := 1 / x) ?_ ?_).symm⟩
      · rw [lt_div_iff₀ h0]; linarith
      · simp
    · exact ⟨1, 0, (tails_one (n := 0) h (by simp) : tails (1 / x) 1 = x)⟩
  have h0 : x ≠ 0 := fun e => hx ⟨0, by simp [e]⟩
  rcases lt_or_gt_of_ne h0 with h | h
  · have h1 := pos hx.neg (by linarith)
    have h2 : Irrational (1 / x) := by rw [one_div]; exact hx.inv
    have h3 := Meet.neg h2
    rw [show -(1 / x) = 1 / -x by rw [div_neg]] at h3
    exact (h3.symm.trans h1).trans (Meet.neg hx)
  · exact pos hx h

/-! ### equivalence -/

theorem irr_den {x : ℝ} (hx : Irrational x) {a b c d : ℤ} (h : a * d - b * c = 1 ∨ a * d - b * c = -1) :
    (c : ℝ) * x + d ≠ 0 := by
  refine den_ne hx ?_
  rintro ⟨rfl, rfl⟩
  rcases h with h | h <;> simp at h

theorem det_ne {a b c d : ℤ} (h : a * d - b * c = 1 ∨ a * d - b * c = -1) : a * d - b * c ≠ 0 := by omega

theorem Equivalent.meet {x y : ℝ} (hx : Irrational x) (h : Equivalent x y) : Meet y x := by
  obtain ⟨a, b, c, d, hdet, -, rfl⟩ := h
  have key : ∀ (n : ℕ) (a b c d : ℤ), c.natAbs ≤ n → (a * d - b * c = 1 ∨ a * d - b * c = -1) →
      Meet ((a * x + b) / (c * x + d)) x := by
    intro n
    induction n with
    | zero =>
      intro a b c d hc hdet
      obtain rfl : c = 0 := by omega
      simp only [mul_zero, sub_zero] at hdet
      have had : (a = 1 ∧ d = 1) ∨ (a = -1 ∧ d = -1) ∨ (a = 1 ∧ d = -1) ∨ (a = -1 ∧ d = 1) := by
        rcases hdet with h | h
        · rcases Int.mul_eq_one_iff_eq_one_or_neg_one.1 h with h | h <;> simp [h]
        · rcases Int.mul_eq_neg_one_iff_eq_one_or_neg_one.1 h with h | h <;> simp [h]
      rcases had with ⟨rfl, rfl⟩ | ⟨rfl, rfl⟩ | ⟨rfl, rfl⟩ | ⟨rfl, rfl⟩
      · have := Meet.add_int x b
        convert this using 1
        simp
      · have := Meet.add_int x (-b)
        convert this using 1
        push_cast
        ring
      · have := (Meet.add_int (-x) (-b)).trans (Meet.neg hx)
        convert this using 1
        push_cast
        ring
      · have := (Meet.add_int (-x) b).trans (Meet.neg hx)
        convert this using 1
        push_cast
        ring
    | succ n ih =>
      intro a b c d hc hdet
      by_cases h0 : c = 0
      · subst h0
        exact ih a b 0 d (by simp) hdet
      · have hden := irr_den hx hdet
        have hmod := Int.emod_add_mul_ediv a c
        have h1 := Int.emod_nonneg a h0
        have h2 := Int.emod_lt_abs a h0
        generalize hr : a % c = r at hmod h1 h2
        generalize hq : a / c = q at hmod
        have hdet' : c * (b - q * d) - d * r = 1 ∨ c * (b - q * d) - d * r = -1 := by
          have : c * (b - q * d) - d * r = -(a * d - b * c) := by rw [← hmod]; ring
          rw [this]
          rcases hdet with h | h <;> simp [h]
        have hm := ih c d r (b - q * d) (by rw [Int.abs_eq_natAbs] at h2; omega) hdet'
        have hden' := irr_den hx hdet'
        have hirr : Irrational ((a * x + b) / (c * x + d)) := mobius_irrational hx (det_ne hdet)
        have e : (a * x + b) / (c * x + d) + ((-q : ℤ) : ℝ) = 1 / ((c * x + d) / (r * x + ((b - q * d : ℤ) : ℝ))) := by
          rw [one_div_div, ← hmod]
          push_cast
          field_simp
          ring
        have hi2 : Irrational ((c * x + d) / (r * x + ((b - q * d : ℤ) : ℝ))) := mobius_irrational hx (det_ne hdet')
        have h3 := Meet.inv hi2
        rw [← e] at h3
        exact ((Meet.add_int _ (-q)).symm.trans h3).trans hm
  exact key c.natAbs a b c d le_rfl hdet

theorem Equivalent.refl (x : ℝ) : Equivalent x x := ⟨1, 0, 0, 1, by simp, by simp, by simp⟩

theorem Equivalent.symm {x y : ℝ} (h : Equivalent x y) : Equivalent y x := by
  obtain ⟨a, b, c, d, hdet, hden, rfl⟩ := h
  have hd : (a : ℝ) * d - b * c ≠ 0 := by exact_mod_cast det_ne hdet
  have e : (-c : ℝ) * ((a * x + b) / (c * x + d)) + a = (a * d - b * c) / (c * x + d) := by
    field_simp
    ring
  refine ⟨d, -b, -c, a, ?_, ?_, ?_⟩
  · rw [show d * a - -b * -c = a * d - b * c by ring]; exact hdet
  · push_cast
    rw [e]
    exact div_ne_zero hd hden
  · push_cast
    rw [e, eq_div_iff (div_ne_zero hd hden)]
    have h2 : (c : ℝ) * x + d ≠ 0 := hden
    rw [mul_div_assoc', div_eq_iff h2, add_mul, mul_assoc, div_mul_cancel₀ _ h2]
    ring

theorem Equivalent.trans {x y z : ℝ} (h : Equivalent x y) (h' : Equivalent y z) : Equivalent x z := by
  obtain ⟨a, b, c, d, hdet, hden, rfl⟩ := h
  obtain ⟨a', b', c', d', hdet', hden', rfl⟩ := h'
  have e : ∀ u v : ℝ, u * ((a * x + b) / (c * x + d)) + v = ((u * a + v * c) * x + (u * b + v * d)) / (c * x + d) := by
    intro u v
    rw [eq_div_iff hden, add_mul, mul_assoc, div_mul_cancel₀ _ hden]
    ring
  rw [e] at hden'
  have hn : ((c' : ℝ) * a + d' * c) * x + (c' * b + d' * d) ≠ 0 := fun h0 => hden' (by rw [h0, zero_div])
  refine ⟨a' * a + b' * c, a' * b + b' * d, c' * a + d' * c, c' * b + d' * d, ?_, ?_, ?_⟩
  · rw [show (a' * a + b' * c) * (c' * b + d' * d) - (a' * b + b' * d) * (c' * a + d' * c)
      = (a' * d' - b' * c') * (a * d - b * c) by ring]
    rcases hdet with h | h <;> rcases hdet' with h' | h' <;> rw [h, h'] <;> simp
  · push_cast; exact hn
  · push_cast
    rw [e, e, div_div_div_cancel_right₀ hden]

theorem equivalent_tails {x : ℝ} (hx : Irrational x) (n : ℕ) : Equivalent x (tails x n) := by
  induction n with
  | zero => exact Equivalent.refl x
  | succ n ih =>
    refine ih.trans ⟨0, 1, 1, -⌊tails x n⌋, by simp, ?_, ?_⟩
    · have := (tails_irrational hx n).ne_int ⌊tails x n⌋
      push_cast
      intro h
      exact this (by linarith)
    · rw [tails_succ]
      push_cast
      ring_nf

theorem equivalent_iff_sameTail {x y : ℝ} (hx : Irrational x) (hy : Irrational y) : Equivalent x y ↔ SameTail x y := by
  constructor
  · intro h
    exact (h.meet hx).symm.sameTail
  · intro h
    obtain ⟨m, k, e⟩ := h.meet hx hy
    exact (equivalent_tails hx m).trans (e ▸ (equivalent_tails hy k).symm)

/-! ### conjugate numbers -/

theorem ConjRoots.symm {v w : ℝ} (h : ConjRoots v w) : ConjRoots w v := by
  obtain ⟨h0, A, B, C, hA, h1, h2⟩ := h
  exact ⟨h0.symm, A, B, C, hA, h2, h1⟩

theorem ConjRoots.irr {v w : ℝ} (hv : Irrational v) (h : ConjRoots v w) : Irrational w := by
  obtain ⟨h0, A, B, C, hA, h1, h2⟩ := h
  have hAR : (A : ℝ) ≠ 0 := by exact_mod_cast hA
  have e : (v - w) * (A * (v + w) + B) = 0 := by linear_combination h1 - h2
  have e2 : A * (v + w) + B = 0 := (mul_eq_zero.1 e).resolve_left (sub_ne_zero.2 h0)
  rintro ⟨q, rfl⟩
  refine hv ⟨-B / A - q, ?_⟩
  push_cast
  field_simp
  linarith

/-- a homographic function takes conjugate numbers to conjugate numbers -/
theorem ConjRoots.map {v w : ℝ} (hv : Irrational v) (h : ConjRoots v w) {a b c d : ℤ} (hdet : a * d - b * c ≠ 0) :
    ConjRoots ((a * v + b) / (c * v + d)) ((a * w + b) / (c * w + d)) := by
  have hw := h.irr hv
  obtain ⟨h0, A, B, C, hA, h1, h2⟩ := h
  have hcd : ¬ (c = 0 ∧ d = 0) := by rintro ⟨rfl, rfl⟩; simp at hdet
  have nv := den_ne hv hcd
  have nw := den_ne hw hcd
  have hdR : (a : ℝ) * d - b * c ≠ 0 := by exact_mod_cast hdet
  have hAR : (A : ℝ) ≠ 0 := by exact_mod_cast hA
  have e : (v - w) * (A * (v + w) + B) = 0 := by linear_combination h1 - h2
  have e2 : A * (v + w) + B = 0 := (mul_eq_zero.1 e).resolve_left (sub_ne_zero.2 h0)
  have e3 : A * (v * w) = C := by linear_combination -h1 + v * e2
  have poly : ∀ x : ℝ, (c : ℝ) * x + d ≠ 0 → A * x ^ 2 + B * x + C = 0 →
      ((A * d ^ 2 - B * c * d + C * c ^ 2 : ℤ) : ℝ) * ((a * x + b) / (c * x + d)) ^ 2 +
      ((-2 * A * b * d + B * (a * d + b * c) - 2 * C * a * c : ℤ) : ℝ) * ((a * x + b) / (c * x + d)) +
      ((A * b ^ 2 - B * a * b + C * a ^ 2 : ℤ) : ℝ) = 0 := by
    intro x nx hx
    have h3 : ((A * d ^ 2 - B * c * d + C * c ^ 2 : ℤ) : ℝ) * (a * x + b) ^ 2 +
      ((-2 * A * b * d + B * (a * d + b * c) - 2 * C * a * c : ℤ) : ℝ) * (a * x + b) * (c * x + d) +
      ((A * b ^ 2 - B * a * b + C * a ^ 2 : ℤ) : ℝ) * (c * x + d) ^ 2 = 0 := by
      push_cast
      linear_combination ((a : ℝ) * d - b * c) ^ 2 * hx
    generalize ((A * d ^ 2 - B * c * d + C * c ^ 2 : ℤ) : ℝ) = A' at h3 ⊢
    generalize ((-2 * A * b * d + B * (a * d + b * c) - 2 * C * a * c : ℤ) : ℝ) = B' at h3 ⊢
    generalize ((A * b ^ 2 - B * a * b + C * a ^ 2 : ℤ) : ℝ) = C' at h3 ⊢
    generalize (a : ℝ) * x + b = N at h3 ⊢
    generalize (c : ℝ) * x + d = D at h3 nx ⊢
    field_simp
    linear_combination h3
  refine ⟨?_, A * d ^ 2 - B * c * d + C * c ^ 2, -2 * A * b * d + B * (a * d + b * c) - 2 * C * a * c,
    A * b ^ 2 - B * a * b + C * a ^ 2, ?_, poly v nv h1, poly w nw h2⟩
  · intro h3
    rw [div_eq_div_iff nv nw] at h3
    have h4 : ((a : ℝ) * d - b * c) * (v - w) = 0 := by linear_combination h3
    rcases mul_eq_zero.1 h4 with h5 | h5
    · exact hdR h5
    · exact h0 (sub_eq_zero.1 h5)
  · intro h3
    have h4 : ((A * d ^ 2 - B * c * d + C * c ^ 2 : ℤ) : ℝ) = A * ((c * v + d) * (c * w + d)) := by
      push_cast
      linear_combination -(c : ℝ) ^ 2 * e3 + -(c : ℝ) * d * e2
    rw [h3, Int.cast_zero] at h4
    exact mul_ne_zero hAR (mul_ne_zero nv nw) h4.symm

end NumIrr
