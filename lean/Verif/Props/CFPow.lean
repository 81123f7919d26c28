/-
C146: powers of continued fractions calculated with `num_traits::pow`.
-/
import Verif.Spec.CFPow
import Verif.Props.CFArith

namespace NumIrr
namespace CF
open CFFormula

private theorem andThen_inv {r : Option (Res CF)} {k : CF → Option (Res CF)} {w : CF} (h : andThen r k = some (.ok w)) :
    ∃ c, r = some (.ok c) ∧ k c = some (.ok w) := by
  match r, h with
  | some (.ok c), h => exact ⟨c, rfl, h⟩

section generic
variable {mul : CF → CF → Option (Res CF)} {R : CF → ℕ → Prop}

private theorem loop_value (h : ∀ x y z k l, R x k → R y l → mul x y = some (.ok z) → R z (k + l)) (f : ℕ) (acc b : CF)
    (e k l : ℕ) (ha : R acc k) (hb : R b l) (hf : e ≤ f) (z : CF) (hz : powLoop mul f acc b e = some (.ok z)) :
    R z (k + l * (2 * (e / 2))) := by
  induction f generalizing acc b e k l with
  | zero =>
    obtain rfl : e = 0 := by omega
    cases hz
    simpa using ha
  | succ f ih =>
    unfold powLoop at hz
    by_cases h1 : 1 < e
    · rw [if_pos h1] at hz
      obtain ⟨b', e1, hz⟩ := andThen_inv hz
      have p1 := h b b b' l l hb hb e1
      by_cases h2 : e / 2 % 2 = 1
      · rw [if_pos h2] at hz
        obtain ⟨a', e2, hz⟩ := andThen_inv hz
        have p2 := h acc b' a' k (l + l) ha p1 e2
        have p3 := ih a' b' (e / 2) (k + (l + l)) (l + l) p2 p1 (by omega) hz
        convert p3 using 1
        have : e / 2 = 2 * (e / 2 / 2) + 1 := by omega
        generalize e / 2 / 2 = m at *
        rw [this]; ring
      · rw [if_neg h2] at hz
        have p3 := ih acc b' (e / 2) k (l + l) ha p1 (by omega) hz
        convert p3 using 1
        have : e / 2 = 2 * (e / 2 / 2) := by omega
        generalize e / 2 / 2 = m at *
        rw [this]; ring
    · rw [if_neg h1] at hz
      cases hz
      rw [show e / 2 = 0 by omega]
      simpa using ha

private theorem strip_value (h : ∀ x y z k l, R x k → R y l → mul x y = some (.ok z) → R z (k + l)) (f : ℕ) (b : CF)
    (e l : ℕ) (hb : R b l) (he : e ≠ 0) (hf : e ≤ f) (z : CF) (hz : powStrip mul f b e = some (.ok z)) : R z (l * e) := by
  induction f generalizing b e l with
  | zero => omega
  | succ f ih =>
    unfold powStrip at hz
    by_cases h2 : e % 2 = 0
    · rw [if_pos h2] at hz
      obtain ⟨b', e1, hz⟩ := andThen_inv hz
      have p2 := ih b' (e / 2) (l + l) (h b b b' l l hb hb e1) (by omega) (by omega) hz
      convert p2 using 1
      obtain ⟨m, rfl⟩ : ∃ m, e = 2 * m := ⟨e / 2, by omega⟩
      rw [Nat.mul_div_cancel_left _ two_pos]; ring
    · rw [if_neg h2] at hz
      by_cases h1 : e = 1
      · rw [if_pos h1] at hz
        cases hz
        simpa [h1] using hb
      · rw [if_neg h1] at hz
        have p := loop_value h e b b e l l hb hb le_rfl z hz
        convert p using 1
        obtain ⟨m, rfl⟩ : ∃ m, e = 2 * m + 1 := ⟨e / 2, by omega⟩
        rw [show (2 * m + 1) / 2 = m by omega]; ring

private theorem loop_returns (h : ∀ x y k l, R x k → R y l → ∃ z, mul x y = some (.ok z) ∧ R z (k + l)) (f : ℕ) (acc b : CF)
    (e k l : ℕ) (ha : R acc k) (hb : R b l) : ∃ z, powLoop mul f acc b e = some (.ok z) := by
  induction f generalizing acc b e k l with
  | zero => exact ⟨acc, rfl⟩
  | succ f ih =>
    unfold powLoop
    split
    · obtain ⟨b', e1, p1⟩ := h b b l l hb hb
      rw [e1]
      simp only [andThen]
      split
      · obtain ⟨a', e2, p2⟩ := h acc b' k (l + l) ha p1
        rw [e2]
        exact ih _ _ _ _ _ p2 p1
      · exact ih _ _ _ _ _ ha p1
    · exact ⟨acc, rfl⟩

private theorem strip_returns (h : ∀ x y k l, R x k → R y l → ∃ z, mul x y = some (.ok z) ∧ R z (k + l)) (f : ℕ) (b : CF)
    (e l : ℕ) (hb : R b l) : ∃ z, powStrip mul f b e = some (.ok z) := by
  induction f generalizing b e l with
  | zero => exact ⟨b, rfl⟩
  | succ f ih =>
    unfold powStrip
    split
    · obtain ⟨b', e1, p1⟩ := h b b l l hb hb
      rw [e1]
      exact ih _ _ _ p1
    · split
      · exact ⟨b, rfl⟩
      · exact loop_returns h _ _ _ _ _ _ hb hb

end generic

private theorem one_val : CF.one.Canonical ∧ CF.one.HasVal 1 :=
  ⟨canonical_of_canL (show CanL [1] from trivial) fun _ => rfl, (hasVal_finite rfl).2 ⟨1, by decide +kernel, by simp⟩⟩

/-- **C146** Finite fractions: the power always returns, with the canonical fraction of the power of the number. -/
theorem cf_pow_finite (cfg : Cfg) (fuel : ℕ) (c : CF) (hc : c.Canonical) (x : ℝ) (hx : c.HasVal x) (e : ℕ) :
    ∃ w, c.pow cfg fuel e = some (.ok w) ∧ w.Canonical ∧ w.HasVal (x ^ e) := by
  unfold pow
  by_cases he : e = 0
  · rw [if_pos he, he, pow_zero]
    exact ⟨_, rfl, one_val⟩
  rw [if_neg he]
  have h : ∀ y z k l, (y.Canonical ∧ y.HasVal (x ^ k)) → (z.Canonical ∧ z.HasVal (x ^ l)) →
      ∃ w, CF.mul cfg fuel y z = some (.ok w) ∧ w.Canonical ∧ w.HasVal (x ^ (k + l)) := by
    intro y z k l hy hz
    obtain ⟨w, h1, h2, h3⟩ := (cf_bin_rational cfg fuel y z hy.1.wf hz.1.wf hy.1.1 hz.1.1 _ _ hy.2 hz.2 .mul).1 (by simp)
    exact ⟨w, h1, h2, by rw [pow_add]; exact h3⟩
  obtain ⟨w, hw⟩ := strip_returns (R := fun w k => w.Canonical ∧ w.HasVal (x ^ k)) h e c e 1 ⟨hc, by simpa using hx⟩
  refine ⟨w, hw, ?_⟩
  have := strip_value (R := fun w k => w.Canonical ∧ w.HasVal (x ^ k)) (mul := CF.mul cfg fuel) (fun y z w k l hy hz hw => by
    obtain ⟨w', h1, h2⟩ := h y z k l hy hz
    rw [hw] at h1
    cases h1
    exact h2) e c e 1 ⟨hc, by simpa using hx⟩ he le_rfl w hw
  simpa using this

example : CF.pow ⟨false, true⟩ 0 ⟨[1, 2], [], true⟩ 5 = some (.ok ⟨[7, 1, 1, 2, 6], [], true⟩) := by decide +kernel

/-- **C146** partial: what the power of a periodic fraction returns, if it returns, is the right number, provided that the
irrational part of every power has the sign of the power. -/
theorem cf_pow_value_partial (cfg : Cfg) (fuel : ℕ) (c : CF) (hc : c.Wf) (hp : c.p ≠ []) (x : ℝ) (hx : c.HasVal x)
    (hs : ∀ k, 2 ≤ k → SameSign (x ^ k)) (e : ℕ) (w : CF) (hw : c.pow cfg fuel e = some (.ok w)) :
    w.Wf ∧ w.HasVal (x ^ e) := by
  unfold pow at hw
  by_cases he : e = 0
  · rw [if_pos he] at hw
    cases hw
    rw [he, pow_zero]
    exact ⟨one_val.1.wf, one_val.2⟩
  rw [if_neg he] at hw
  have := strip_value (R := fun w k => w.Wf ∧ w.p ≠ [] ∧ 1 ≤ k ∧ w.HasVal (x ^ k)) (mul := CF.mul cfg fuel)
    (fun y z w k l hy hz hw => by
      have hv : BinOp.real .mul (x ^ k) (x ^ l) = x ^ (k + l) := (pow_add _ _ _).symm
      obtain ⟨h1, h2⟩ := cf_bin_periodic_value_partial cfg fuel y z hy.1 hz.1 (.inl hy.2.1) _ _ hy.2.2.2 hz.2.2.2 .mul
        (by rw [hv]; exact hs _ (by omega)) w hw
      refine ⟨h1, (cf_bin_periodic_value cfg fuel y z hy.1 hz.1 (.inl hy.2.1) _ _ hy.2.2.2 hz.2.2.2 .mul w hw).2.1, by omega, ?_⟩
      rw [← hv]; exact h2) e c e 1 ⟨hc, hp, le_rfl, by simpa using hx⟩ he le_rfl w hw
  exact ⟨this.1, by simpa using this.2.2.2⟩

/-- the condition holds for every `A + B√R` with positive `A` and `B` -/
theorem sameSign_pow (A B : ℚ) (R : ℤ) (hA : 0 < A) (hB : 0 < B) (hR : 0 ≤ R) (hs : ¬ IsSquare R) (k : ℕ) (hk : 1 ≤ k) :
    SameSign ((A + B * √(R : ℝ)) ^ k) := by
  suffices H : ∃ A' B' : ℚ, 0 < A' ∧ 0 < B' ∧ ((A + B * √(R : ℝ)) ^ k = A' + B' * √(R : ℝ)) by
    obtain ⟨A', B', h1, h2, h3⟩ := H
    refine ⟨A', B', R, hR, hs, h3, ?_⟩
    rw [h3]
    have h4 : (0 : ℝ) < A' := by exact_mod_cast h1
    have h5 : (0 : ℝ) < B' := by exact_mod_cast h2
    positivity
  induction k, hk using Nat.le_induction with
  | base => exact ⟨A, B, hA, hB, by rw [pow_one]⟩
  | succ k _ ih =>
    obtain ⟨A', B', h1, h2, h3⟩ := ih
    have hR0 : (0 : ℚ) ≤ R := by exact_mod_cast hR
    have hsq : √(R : ℝ) * √(R : ℝ) = R := Real.mul_self_sqrt (by exact_mod_cast hR)
    refine ⟨A' * A + B' * B * R, A' * B + B' * A, by positivity, by positivity, ?_⟩
    rw [pow_succ, h3]
    push_cast
    linear_combination (B' : ℝ) * B * hsq

/-- **C146** is false for square roots and all other irrational numbers with a rational square: no power but the first
is ever returned. -/
theorem cf_pow_refuted (cfg : Cfg) (fuel : ℕ) (c : CF) (hc : c.Wf) (hp : c.p ≠ []) (x : ℝ) (hx : c.HasVal x) (q : ℚ)
    (hq : x * x = q) (e : ℕ) (he : 2 ≤ e) (w : CF) : c.pow cfg fuel e ≠ some (.ok w) := by
  have hno : ∀ b, CF.mul cfg fuel c c ≠ some (.ok b) := fun b =>
    cf_bin_rational_result cfg fuel c c hc hc (.inl hp) x x hx hx .mul q hq b
  intro hw
  unfold pow at hw
  rw [if_neg (by omega)] at hw
  obtain ⟨f, rfl⟩ : ∃ f, e = f + 1 := ⟨e - 1, by omega⟩
  unfold powStrip at hw
  split at hw
  · obtain ⟨b, h, -⟩ := andThen_inv hw
    exact hno b h
  · rw [if_neg (by omega)] at hw
    unfold powLoop at hw
    rw [if_pos (by omega)] at hw
    obtain ⟨b, h, -⟩ := andThen_inv hw
    exact hno b h

/-- `√2` has a rational square; `1 + √2` has positive parts, and its powers are returned -/
example : Wf ⟨[1], [2], false⟩ ∧ CF.pow ⟨false, true⟩ 30 ⟨[1], [2], false⟩ 2 = some (.error .debugAssert) ∧
    CF.pow ⟨false, true⟩ 60 ⟨[2], [2], false⟩ 3 = some (.ok ⟨[14], [14], false⟩) := ⟨by simp [Wf], by decide +kernel, by decide +kernel⟩

end CF
end NumIrr
