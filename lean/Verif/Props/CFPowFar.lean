/-
C146, second part: when powers of periodic continued fractions return.
-/
import Verif.Props.CFFar

namespace NumIrr
namespace CF
open CFFormula

/-- with enough fuel the result is always the same: a fraction with `Q`, or, only if `E`, the panic for incompatible roots -/
private def Ends (E : Prop) (g : ℕ → Option (Res CF)) (Q : CF → Prop) : Prop :=
  ∃ N r, (∀ fuel, N ≤ fuel → g fuel = some r) ∧ ((E ∧ r = .error .incompatible) ∨ ∃ w, r = .ok w ∧ Q w)

private theorem Ends.ret {E : Prop} {w : CF} {Q : CF → Prop} (h : Q w) : Ends E (fun _ => some (.ok w)) Q :=
  ⟨0, _, fun _ _ => rfl, .inr ⟨w, rfl, h⟩⟩

private theorem Ends.andThen {E : Prop} {g : ℕ → Option (Res CF)} {k : ℕ → CF → Option (Res CF)} {Q Q' : CF → Prop}
    (h : Ends E g Q) (hk : ∀ w, Q w → Ends E (fun fuel => k fuel w) Q') :
    Ends E (fun fuel => CFFormula.andThen (g fuel) (k fuel)) Q' := by
  obtain ⟨N, r, h1, ⟨hE, rfl⟩ | ⟨w, rfl, h2⟩⟩ := h
  · exact ⟨N, _, fun fuel hf => by simp only [h1 fuel hf]; rfl, .inl ⟨hE, rfl⟩⟩
  · obtain ⟨M, r, h3, h4⟩ := hk w h2
    exact ⟨N + M, r, fun fuel hf => by simp only [h1 fuel (by omega)]; exact h3 fuel (by omega), h4⟩

section generic
variable {mul : ℕ → CF → CF → Option (Res CF)} {R : CF → ℕ → Prop}

private theorem loop_ends (h : ∀ x y k l, R x k → R y l → Ends True (fun f => mul f x y) (R · (k + l))) (f : ℕ) (acc b : CF)
    (e k l : ℕ) (ha : R acc k) (hb : R b l) (hf : e ≤ f) :
    Ends True (fun fuel => powLoop (mul fuel) f acc b e) (R · (k + l * (2 * (e / 2)))) := by
  induction f generalizing acc b e k l with
  | zero =>
    obtain rfl : e = 0 := by omega
    exact Ends.ret (by simpa using ha)
  | succ f ih =>
    unfold powLoop
    by_cases h1 : 1 < e
    · simp only [if_pos h1]
      refine Ends.andThen (h b b l l hb hb) fun b' p1 => ?_
      by_cases h2 : e / 2 % 2 = 1
      · simp only [if_pos h2]
        refine Ends.andThen (h acc b' k (l + l) ha p1) fun a' p2 => ?_
        have p3 := ih a' b' (e / 2) (k + (l + l)) (l + l) p2 p1 (by omega)
        convert p3 using 3
        have : e / 2 = 2 * (e / 2 / 2) + 1 := by omega
        generalize e / 2 / 2 = m at *
        rw [this]; ring
      · simp only [if_neg h2]
        have p3 := ih acc b' (e / 2) k (l + l) ha p1 (by omega)
        convert p3 using 3
        have : e / 2 = 2 * (e / 2 / 2) := by omega
        generalize e / 2 / 2 = m at *
        rw [this]; ring
    · simp only [if_neg h1]
      rw [show e / 2 = 0 by omega]
      exact Ends.ret (by simpa using ha)

private theorem strip_ends (h : ∀ x y k l, R x k → R y l → Ends True (fun f => mul f x y) (R · (k + l))) (f : ℕ) (b : CF)
    (e l : ℕ) (hb : R b l) (he : e ≠ 0) (hf : e ≤ f) : Ends True (fun fuel => powStrip (mul fuel) f b e) (R · (l * e)) := by
  induction f generalizing b e l with
  | zero => omega
  | succ f ih =>
    unfold powStrip
    by_cases h2 : e % 2 = 0
    · simp only [if_pos h2]
      refine Ends.andThen (h b b l l hb hb) fun b' p1 => ?_
      have p2 := ih b' (e / 2) (l + l) p1 (by omega) (by omega)
      convert p2 using 3
      obtain ⟨m, rfl⟩ : ∃ m, e = 2 * m := ⟨e / 2, by omega⟩
      rw [Nat.mul_div_cancel_left _ two_pos]; ring
    · simp only [if_neg h2]
      by_cases h1 : e = 1
      · simp only [if_pos h1]
        exact Ends.ret (by simpa [h1] using hb)
      · simp only [if_neg h1]
        have p := loop_ends h e b b e l l hb hb le_rfl
        convert p using 3
        obtain ⟨m, rfl⟩ : ∃ m, e = 2 * m + 1 := ⟨e / 2, by omega⟩
        rw [show (2 * m + 1) / 2 = m by omega]; ring

private theorem strip_two (h : ∀ x k, R x k → Ends False (fun f => mul f x x) (R · (k + k))) (f : ℕ) (b : CF)
    (j l : ℕ) (hb : R b l) (hf : j < f) : Ends False (fun fuel => powStrip (mul fuel) f b (2 ^ j)) (R · (l * 2 ^ j)) := by
  induction f generalizing b j l with
  | zero => omega
  | succ f ih =>
    unfold powStrip
    cases j with
    | zero => exact Ends.ret (by simpa using hb)
    | succ j =>
      simp only [show 2 ^ (j + 1) % 2 = 0 by rw [pow_succ]; omega, if_true]
      refine Ends.andThen (h b l hb) fun b' p1 => ?_
      have p2 := ih b' j (l + l) p1 (by omega)
      rw [show 2 ^ (j + 1) / 2 = 2 ^ j by rw [pow_succ]; omega]
      convert p2 using 3
      ring

end generic

/-- the powers of `A + B√R` with `A ≥ 1` and `2B√R ≥ 1` are far from their conjugates -/
private theorem far_pow (A B : ℚ) (R : ℤ) (hA : 1 ≤ A) (hB : 0 < B) (hR : 0 ≤ R) (hs : ¬ IsSquare R) (h4 : 1 ≤ 4 * (B * B * R)) (k : ℕ)
    (hk : 1 ≤ k) : Far ((A + B * √(R : ℝ)) ^ k) := by
  have hRq : (0 : ℚ) ≤ R := by exact_mod_cast hR
  have hsq : √(R : ℝ) * √(R : ℝ) = R := Real.mul_self_sqrt (by exact_mod_cast hR)
  suffices H : ∃ A' B' : ℚ, 1 ≤ A' ∧ 0 < B' ∧ 1 ≤ 4 * (B' * B' * R) ∧ (A + B * √(R : ℝ)) ^ k = A' + B' * √(R : ℝ) by
    obtain ⟨A', B', h1, h2, h3, h5⟩ := H
    refine ⟨A', B', R, hR, hs, h5, ?_, h3⟩
    rw [h5]
    have h6 : (1 : ℝ) ≤ A' := by exact_mod_cast h1
    have h7 : (0 : ℝ) < B' := by exact_mod_cast h2
    exact mul_pos h7 (add_pos_of_pos_of_nonneg (by linarith) (mul_nonneg h7.le (Real.sqrt_nonneg _)))
  induction k, hk using Nat.le_induction with
  | base => exact ⟨A, B, hA, hB, h4, by simp⟩
  | succ k _ ih =>
    obtain ⟨A', B', h1, h2, h3, h5⟩ := ih
    have hB' : B' ≤ A * B' + B * A' := by
      have : B' ≤ A * B' := le_mul_of_one_le_left h2.le hA
      have : 0 ≤ B * A' := mul_nonneg hB.le (by linarith)
      linarith
    refine ⟨A * A' + B * B' * R, A * B' + B * A', ?_, by linarith, ?_, ?_⟩
    · have : 1 ≤ A * A' := one_le_mul_of_one_le_of_one_le hA h1
      have : 0 ≤ B * B' * R := mul_nonneg (mul_nonneg hB.le h2.le) hRq
      linarith
    · have h6 : B' * B' ≤ (A * B' + B * A') * (A * B' + B * A') := mul_self_le_mul_self h2.le hB'
      have h7 := mul_le_mul_of_nonneg_right h6 hRq
      linarith
    · rw [pow_succ, h5]
      push_cast
      linear_combination (B : ℝ) * B' * hsq

private theorem mul_ends (cfg : Cfg) (x : ℝ) (hfar : ∀ k, 1 ≤ k → Far (x ^ k)) (c e : CF) (k l : ℕ)
    (hc : 1 ≤ k ∧ c.Wf ∧ c.p ≠ [] ∧ c.a.length ≤ 2 ∧ c.HasVal (x ^ k))
    (he : 1 ≤ l ∧ e.Wf ∧ e.p ≠ [] ∧ e.a.length ≤ 2 ∧ e.HasVal (x ^ l)) :
    Ends (c ≠ e) (fun f => CF.mul cfg f c e)
      (fun w => 1 ≤ k + l ∧ w.Wf ∧ w.p ≠ [] ∧ w.a.length ≤ 2 ∧ w.HasVal (x ^ (k + l))) := by
  obtain ⟨c1, c2, c3, c4, c5⟩ := hc
  obtain ⟨e1, e2, e3, e4, e5⟩ := he
  obtain ⟨s, hs, hs1, -⟩ := cf_toSurd_partial cfg c c2 (.inr (.inl c4))
  obtain ⟨t, ht, ht1, -⟩ := cf_toSurd_partial cfg e e2 (.inr (.inl e4))
  obtain ⟨g1, g2⟩ := Surd.mul_spec (hs1.toOk cfg) (ht1.toOk cfg)
  by_cases hcond : s.r = 0 ∨ t.r = 0 ∨ (s.a = 0 ∧ t.a = 0) ∨ s.Compatible t
  · obtain ⟨u, hu, -⟩ := g1 hcond
    obtain ⟨N, w, h1, h2, h3, h4, h5⟩ := cf_bin_periodic_returns_apart cfg c e c2 e2 e3 _ _ c5 e5 .mul s t u hs ht hu (by
      show Apart (x ^ k * x ^ l)
      rw [← pow_add]
      exact far_apart (hfar _ (by omega)))
    refine ⟨N, _, h1, .inr ⟨w, rfl, by omega, h2, h3, h4, ?_⟩⟩
    rw [pow_add]
    exact h5
  · refine ⟨0, _, fun fuel _ => ?_, .inl ⟨?_, rfl⟩⟩
    · show CF.mul cfg fuel c e = _
      unfold CF.mul opCF viaSurd
      rw [if_neg (by simp [isRational, e3]), hs, Surd.ok_bind]
      simp only [ht, Surd.ok_bind, g2 hcond]
    · rintro rfl
      rw [hs] at ht
      cases ht
      exact hcond (.inr (.inr (.inr ⟨1, by simp⟩)))

/-- **C146** partial: `A + B√R` with `A ≥ 1` and `2B√R ≥ 1`, written with at most two coefficients before the period.  With enough
fuel, every power ends: with the fraction of the power of the number, or with the panic for incompatible roots.  Missing: the
other numbers. -/
theorem cf_pow_ends_partial (cfg : Cfg) (c : CF) (hc : c.Wf) (hp : c.p ≠ []) (ha : c.a.length ≤ 2) (A B : ℚ) (R : ℤ) (hA : 1 ≤ A)
    (hB : 0 < B) (hR : 0 ≤ R) (hs : ¬ IsSquare R) (h4 : 1 ≤ 4 * (B * B * R)) (hx : c.HasVal (A + B * √(R : ℝ))) (e : ℕ) (he : e ≠ 0) :
    ∃ N r, (∀ fuel, N ≤ fuel → c.pow cfg fuel e = some r) ∧
      (r = .error .incompatible ∨ ∃ w, r = .ok w ∧ w.Wf ∧ w.HasVal ((A + B * √(R : ℝ)) ^ e)) := by
  obtain ⟨N, r, h1, h2⟩ := strip_ends (mul := fun f => CF.mul cfg f)
    (R := fun w k => 1 ≤ k ∧ w.Wf ∧ w.p ≠ [] ∧ w.a.length ≤ 2 ∧ w.HasVal ((A + B * √(R : ℝ)) ^ k))
    (fun x y k l h1 h2 => by
      obtain ⟨N, r, g1, g2⟩ := mul_ends cfg _ (far_pow A B R hA hB hR hs h4) x y k l h1 h2
      exact ⟨N, r, g1, g2.imp (fun h => ⟨trivial, h.2⟩) id⟩)
    e c e 1 ⟨le_rfl, hc, hp, ha, by simpa using hx⟩ he le_rfl
  refine ⟨N, r, fun fuel hf => ?_, ?_⟩
  · unfold pow; rw [if_neg he]; exact h1 fuel hf
  · rcases h2 with ⟨-, h2⟩ | ⟨w, h2, -, h3, -, -, h5⟩
    · exact .inl h2
    · exact .inr ⟨w, h2, h3, by simpa using h5⟩

/-- For these, the powers with an exponent `2^j` are always returned. -/
theorem cf_pow_two_partial (cfg : Cfg) (c : CF) (hc : c.Wf) (hp : c.p ≠ []) (ha : c.a.length ≤ 2) (A B : ℚ) (R : ℤ) (hA : 1 ≤ A)
    (hB : 0 < B) (hR : 0 ≤ R) (hs : ¬ IsSquare R) (h4 : 1 ≤ 4 * (B * B * R)) (hx : c.HasVal (A + B * √(R : ℝ))) (j : ℕ) :
    ∃ N w, (∀ fuel, N ≤ fuel → c.pow cfg fuel (2 ^ j) = some (.ok w)) ∧ w.Wf ∧ w.HasVal ((A + B * √(R : ℝ)) ^ 2 ^ j) := by
  obtain ⟨N, r, h1, h2⟩ := strip_two (mul := fun f => CF.mul cfg f)
    (R := fun w k => 1 ≤ k ∧ w.Wf ∧ w.p ≠ [] ∧ w.a.length ≤ 2 ∧ w.HasVal ((A + B * √(R : ℝ)) ^ k))
    (fun x k h1 => by
      obtain ⟨N, r, g1, g2⟩ := mul_ends cfg _ (far_pow A B R hA hB hR hs h4) x x k k h1 h1
      exact ⟨N, r, g1, g2.imp (fun h => absurd rfl h.1) id⟩)
    (2 ^ j) c j 1 ⟨le_rfl, hc, hp, ha, by simpa using hx⟩ Nat.lt_two_pow_self
  rcases h2 with ⟨h2, -⟩ | ⟨w, rfl, -, h3, -, -, h5⟩
  · exact h2.elim
  · refine ⟨N, w, fun fuel hf => ?_, h3, by simpa using h5⟩
    unfold pow; rw [if_neg (by positivity)]; exact h1 fuel hf

/-- `(1 + √2)^4 = 17 + 12√2` -/
example : Wf ⟨[2], [2], false⟩ ∧ (1 : ℚ) ≤ 4 * (1 * 1 * (2 : ℤ)) ∧ ¬ IsSquare (2 : ℤ) ∧
    CF.pow ⟨false, true⟩ 30 ⟨[2], [2], false⟩ 4 = some (.ok ⟨[33], [1, 32], false⟩) :=
  ⟨by simp [Wf], by norm_num, by decide +kernel, by decide +kernel⟩

/-- The panic does occur: the cube of `(6 + √6)/4 = [2; (8, 1)]`.  The fraction becomes `(24 + √96)/16`, its square `(21 + √216)/8`,
and neither of the roots is a multiple of the other. -/
theorem cf_pow_panics (cfg : Cfg) : Wf ⟨[2], [8, 1], false⟩ ∧ HasVal ⟨[2], [8, 1], false⟩ ((6 + √6) / 4) ∧
    CF.pow cfg 100 ⟨[2], [8, 1], false⟩ 3 = some (.error .incompatible) := by
  have hw : Wf ⟨[2], [8, 1], false⟩ := by simp [Wf]
  have h1 : CF.toSurd cfg ⟨[2], [8, 1], false⟩ = .ok ⟨24, 1, 16, 96⟩ := by
    obtain ⟨c, d⟩ := cfg; cases c <;> cases d <;> decide +kernel
  refine ⟨hw, ?_, ?_⟩
  · have := (cf_toSurd_value cfg _ hw _ h1).2
    convert this using 1
    unfold Surd.val quadR
    push_cast
    rw [show (96 : ℝ) = 4 ^ 2 * 6 by norm_num, Real.sqrt_mul (by norm_num), Real.sqrt_sq (by norm_num)]
    ring
  · obtain ⟨c, d⟩ := cfg; cases c <;> cases d <;> decide +kernel

end CF
end NumIrr
