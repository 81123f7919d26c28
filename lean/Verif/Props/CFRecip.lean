/-
C147: the reciprocal of a continued fraction has the same coefficients, moved by one place.
-/
import Verif.Props.CFArith
import Verif.Props.CFNew
import Verif.Lemmas.CFShort

namespace NumIrr
namespace CF

/-! ### finite fractions -/

/-- the coefficients of the reciprocal of a finite fraction in canonical form -/
def recipCoeffs : List ℕ → List ℕ
  | [1] => [1]
  | 0 :: l => l
  | l => 0 :: l

private theorem recip_big (n y : ℕ) (l : List ℕ) : recipCoeffs ((n + 1) :: y :: l) = 0 :: (n + 1) :: y :: l := by
  cases n <;> rfl

private theorem recip_can {a : List ℕ} (h : CanL a) (h0 : a ≠ [0]) : CanL (recipCoeffs a) := by
  match a, h with
  | [1], _ => trivial
  | 0 :: y :: l, h => exact h.2.2
  | [n + 2], _ => exact ⟨by omega, fun _ => by omega, trivial⟩
  | (n + 1) :: y :: l, h => rw [recip_big]; exact ⟨by omega, fun h => by simp at h, h⟩

private theorem recip_valQ {a : List ℕ} (h : CanL a) (h0 : a ≠ [0]) {q : ℚ} (hq : cfVal (toInts a) = some q) (hq0 : q ≠ 0) :
    cfVal (toInts (recipCoeffs a)) = some (1 / q) := by
  have one : cfVal (toInts (0 :: a)) = some (1 / q) := by
    show (match cfVal (toInts a) with | none => some _ | some y => if y = 0 then none else some (_ + 1 / y)) = _
    rw [hq]
    simp [hq0]
  match a, h with
  | [1], _ =>
    have : q = 1 := by
      have : some (1 : ℚ) = some q := by rw [← hq]; decide +kernel
      exact (Option.some.inj this).symm
    rw [this]; decide +kernel
  | 0 :: y :: l, h =>
    show cfVal (toInts (y :: l)) = _
    have hq : (match cfVal (toInts (y :: l)) with
      | none => some ((0 : ℕ) : ℚ) | some z => if z = 0 then none else some (((0 : ℕ) : ℚ) + 1 / z)) = some q := hq
    match hz : cfVal (toInts (y :: l)) with
    | none => rw [hz] at hq; simp at hq; exact absurd hq.symm hq0
    | some z =>
      rw [hz] at hq
      simp only at hq
      split at hq
      · cases hq
      · next hz0 =>
        have hq := Option.some.inj hq
        rw [← hq]; simp
  | [n + 2], _ => exact one
  | (n + 1) :: y :: l, h => rw [recip_big]; exact one

/-- **C147** Finite fractions: the reciprocal returns for every number but zero, with the coefficients moved by one place. -/
theorem cf_recip_finite (cfg : Cfg) (fuel : ℕ) (c : CF) (hc : c.Canonical) :
    CF.one.div cfg fuel c =
      if c.a = [0] then some (.error .divZero) else some (.ok ⟨recipCoeffs c.a, [], c.neg⟩) := by
  obtain ⟨q, h1, -, -⟩ := canL_val hc.canL
  have hv : c.valQ = some (signed c.neg q) := by unfold valQ; rw [h1]; rfl
  have hx : c.HasVal ((signed c.neg q : ℚ) : ℝ) := (hasVal_finite hc.1).2 ⟨_, hv, rfl⟩
  have ho : CF.one.Wf ∧ CF.one.HasVal 1 :=
    ⟨by simp [Wf, one], (hasVal_finite rfl).2 ⟨1, by decide +kernel, by simp⟩⟩
  obtain ⟨h2, h3⟩ := cf_bin_rational cfg fuel CF.one c ho.1 hc.wf rfl hc.1 1 _ ho.2 hx .div
  have h00 : ∀ b : Bool, ∀ q : ℚ, signed b q = 0 ↔ q = 0 := by
    intro b q; cases b <;> simp [signed]
  split
  · next h0 =>
    refine h3 ⟨rfl, ?_⟩
    rw [h0] at h1
    have : q = 0 := by
      have : some (0 : ℚ) = some q := by rw [← h1]; decide +kernel
      exact (Option.some.inj this).symm
    exact_mod_cast (h00 _ _).2 this
  · next h0 =>
    have hq0 : q ≠ 0 := by
      intro e
      have := canonical_unique c CF.zero hc (canonical_of_canL (show CanL [0] from trivial) fun _ => rfl)
        (by rw [hv, (h00 _ _).2 e]; decide +kernel)
      exact h0 (by rw [this]; rfl)
    obtain ⟨w, h4, h5, h6⟩ := h2 (fun _ => by exact_mod_cast fun h => hq0 ((h00 _ _).1 h))
    have h7 : Canonical ⟨recipCoeffs c.a, [], c.neg⟩ := by
      refine canonical_of_canL (recip_can hc.canL h0) fun h => ?_
      have := recip_valQ hc.canL h0 h1 hq0
      have h : recipCoeffs c.a = [0] := h
      rw [h] at this
      have : some (0 : ℚ) = some (1 / q) := by rw [← this]; decide +kernel
      exact absurd (Option.some.inj this).symm (one_div_ne_zero hq0)
    refine h4.trans (congrArg (fun w => some (Except.ok w)) (canonical_unique w _ h5 h7 ?_))
    obtain ⟨r, h8, h9⟩ := (hasVal_finite h5.1).1 h6
    rw [h8]
    show _ = (cfVal (toInts (recipCoeffs c.a))).map (signed c.neg)
    rw [recip_valQ hc.canL h0 h1 hq0]
    show some r = some (signed c.neg (1 / q))
    congr 1
    have : ((1 / signed c.neg q : ℚ) : ℝ) = (r : ℝ) := by rw [← h9]; simp [BinOp.real]
    rw [← Rat.cast_injective this]
    cases c.neg <;> simp [signed]

example : Canonical ⟨[3, 1, 4], [], true⟩ ∧
    CF.one.div ⟨false, true⟩ 0 ⟨[3, 1, 4], [], true⟩ = some (.ok ⟨[0, 3, 1, 4], [], true⟩) ∧
    CF.one.div ⟨false, true⟩ 0 ⟨[0, 3, 1, 4], [], true⟩ = some (.ok ⟨[3, 1, 4], [], true⟩) :=
  ⟨canonical_of_canL (show CanL [3, 1, 4] from ⟨by simp, by simp, by simp, by simp, trivial⟩) (by simp), by decide +kernel, by decide +kernel⟩

/-! ### periodic fractions -/

private theorem tails_recip {v : ℝ} (h1 : 1 < v) (n : ℕ) : tails (1 / v) 0 = 1 / v ∧ ⌊1 / v⌋ = 0 ∧ tails (1 / v) (n + 1) = tails v n := by
  have h0 : ⌊1 / v⌋ = 0 := by
    rw [Int.floor_eq_zero_iff]
    exact ⟨by positivity, by rw [div_lt_one (by linarith)]; exact h1⟩
  refine ⟨rfl, h0, ?_⟩
  show tails (1 / (1 / v - ⌊1 / v⌋)) n = _
  rw [h0]
  congr 1
  simp

/-- **C147** partial: whatever fraction is returned for the reciprocal of a periodic one has the same sign and the same
coefficients, moved by one place, if the irrational part of the reciprocal has the sign of the number.  Missing: the other
numbers, for which it is false. -/
theorem cf_recip_periodic_partial (cfg : Cfg) (fuel : ℕ) (c : CF) (hc : c.Wf) (hp : c.p ≠ []) (x : ℝ) (hx : c.HasVal x)
    (hs : SameSign (1 / x)) (w : CF) (hw : CF.one.div cfg fuel c = some (.ok w)) :
    w.neg = c.neg ∧ w.p ≠ [] ∧
    (coeffAt c.a c.p 0 ≠ 0 → coeffAt w.a w.p 0 = 0 ∧ ∀ n, coeffAt w.a w.p (n + 1) = coeffAt c.a c.p n) ∧
    (coeffAt c.a c.p 0 = 0 → ∀ n, coeffAt w.a w.p n = coeffAt c.a c.p (n + 1)) := by
  have ho : CF.one.Wf ∧ CF.one.HasVal 1 :=
    ⟨by simp [Wf, one], (hasVal_finite rfl).2 ⟨1, by decide +kernel, by simp⟩⟩
  obtain ⟨h1, h2⟩ := cf_bin_periodic_value_partial cfg fuel CF.one c ho.1 hc (.inr hp) 1 x ho.2 hx .div hs w hw
  have h3 := (cf_bin_periodic_value cfg fuel CF.one c ho.1 hc (.inr hp) 1 x ho.2 hx .div w hw).2.1
  change w.HasVal (1 / x) at h2
  obtain ⟨c0, ci, cn, -, cc⟩ := coeff_of_val hc hp hx
  obtain ⟨-, -, wn, -, wc⟩ := coeff_of_val h1 h3 h2
  have habs : |1 / x| = 1 / |x| := by rw [abs_div, abs_one]
  rw [habs] at wc
  have hpos : 0 < |x| := abs_pos.2 c0
  have hne : |x| ≠ 1 := fun h => ci.ne_one h
  have hc0 : ((coeffAt c.a c.p 0 : ℕ) : ℤ) = ⌊|x|⌋ := cc 0
  refine ⟨?_, h3, fun h => ?_, fun h n => ?_⟩
  · rw [wn, cn]
    congr 1
    rw [one_div, inv_lt_zero]
  · have hx1 : 1 < |x| := by
      refine lt_of_le_of_ne ?_ (Ne.symm hne)
      have : (1 : ℤ) ≤ ⌊|x|⌋ := by omega
      exact_mod_cast Int.le_floor.1 this
    refine ⟨?_, fun n => ?_⟩
    · have := (wc 0).trans (tails_recip hx1 0).2.1
      exact_mod_cast this
    · have := (wc (n + 1)).trans ((congrArg Int.floor (tails_recip hx1 n).2.2).trans (cc n).symm)
      exact_mod_cast this
  · have hx1 : |x| < 1 := by
      by_contra hh
      have : (1 : ℤ) ≤ ⌊|x|⌋ := Int.le_floor.2 (by push_cast; linarith)
      omega
    have h4 : 1 < 1 / |x| := by rw [lt_div_iff₀ hpos]; linarith
    have h5 := (tails_recip h4 n).2.2
    rw [one_div_one_div] at h5
    have := (wc n).trans ((congrArg Int.floor h5.symm).trans (cc (n + 1)).symm)
    exact_mod_cast this

/-- the condition, for a number with a conjugate of the opposite sign -/
theorem sameSign_recip (x : ℝ) (A B : ℚ) (R : ℤ) (hR : 0 ≤ R) (hs : ¬ IsSquare R) (hx : x = A + B * √(R : ℝ)) (ho : A * A < B * B * R) :
    SameSign (1 / x) := by
  have hR' : (0 : ℝ) ≤ (R : ℝ) := by exact_mod_cast hR
  have hsq : √(R : ℝ) * √(R : ℝ) = R := Real.mul_self_sqrt hR'
  have ho' : (A : ℝ) * A < B * B * R := by exact_mod_cast ho
  have h1 : |(A : ℝ)| < |B * √(R : ℝ)| := sq_lt_sq.1 (by nlinarith)
  have hB : (B : ℝ) ≠ 0 := by rintro h; rw [h] at h1; simp at h1; exact absurd h1 (not_lt.2 (abs_nonneg _))
  have hBx : 0 < (B : ℝ) * x := by
    have h2 : |(B : ℝ) * A| < |(B : ℝ) * (B * √(R : ℝ))| := by
      rw [abs_mul, abs_mul (B : ℝ)]
      exact mul_lt_mul_of_pos_left h1 (abs_pos.2 hB)
    rw [abs_of_nonneg (a := (B : ℝ) * (B * √(R : ℝ))) (by rw [← mul_assoc]; exact mul_nonneg (mul_self_nonneg _) (Real.sqrt_nonneg _))] at h2
    rw [hx]
    have := neg_abs_le ((B : ℝ) * A)
    linarith
  have hx0 : x ≠ 0 := by rintro rfl; simp at hBx
  have hN : (A : ℝ) * A - B * B * R < 0 := by linarith
  have hN' : ((A * A - B * B * R : ℚ) : ℝ) = A * A - B * B * R := by push_cast; ring
  refine ⟨A / (A * A - B * B * R), -B / (A * A - B * B * R), R, hR, hs, ?_, ?_⟩
  · rw [Rat.cast_div, Rat.cast_div, hN', Rat.cast_neg, one_div, inv_eq_iff_eq_inv, ← one_div, eq_div_iff]
    · rw [hx, div_mul_eq_mul_div, ← add_div, mul_div_assoc', div_eq_one_iff_eq hN.ne]
      linear_combination -(B : ℝ) * B * hsq
    · intro h
      have : x * ((A : ℝ) + -B * √(R : ℝ)) = A * A - B * B * R := by rw [hx]; linear_combination -(B : ℝ) * B * hsq
      rw [div_mul_eq_mul_div, ← add_div, div_eq_zero_iff] at h
      rcases h with h | h
      · rw [h, mul_zero] at this; linarith
      · linarith
  · rw [Rat.cast_div, hN', Rat.cast_neg, show -(B : ℝ) / (A * A - B * B * R) * (1 / x) =
      (B * x) / (-(A * A - B * B * R) * (x * x)) by field_simp]
    exact div_pos hBx (mul_pos (by linarith) (mul_self_pos.2 hx0))

/-- `1 / √2 = [0; 1, (2)]` -/
example : Wf ⟨[1], [2], false⟩ ∧ SameSign (1 / √2) ∧
    CF.one.div ⟨false, true⟩ 30 ⟨[1], [2], false⟩ = some (.ok ⟨[0, 1], [2], false⟩) :=
  ⟨by simp [Wf], sameSign_recip (√2) 0 1 2 (by decide) (by decide +kernel) (by simp) (by norm_num), by decide +kernel⟩

/-- **C147** is false: the reciprocal of `(3 + √2) / 7`, which is `3 - √2`, is never returned. -/
theorem cf_recip_refuted (cfg : Cfg) :
    HasVal ⟨[0, 1, 1, 1], [2], false⟩ ((3 + √2) / 7) ∧ ∀ fuel, CF.one.div cfg fuel ⟨[0, 1, 1, 1], [2], false⟩ = none := by
  have h1 : CF.toSurd cfg ⟨[0, 1, 1, 1], [2], false⟩ = .ok ⟨3, 1, 7, 2⟩ := by
    obtain ⟨c, d⟩ := cfg; cases c <;> cases d <;> decide +kernel
  have h2 : Surd.div cfg ⟨1, 0, 1, 0⟩ ⟨3, 1, 7, 2⟩ = .ok ⟨3, -1, 1, 2⟩ := by
    obtain ⟨c, d⟩ := cfg; cases c <;> cases d <;> decide +kernel
  have h3 : CF.toSurd cfg CF.one = .ok ⟨1, 0, 1, 0⟩ := by
    obtain ⟨c, d⟩ := cfg; cases c <;> cases d <;> decide +kernel
  constructor
  · have := (cf_toSurd_value cfg ⟨[0, 1, 1, 1], [2], false⟩ ⟨by decide, by decide, by decide⟩ _ h1).2
    convert this using 1
    simp [Surd.val, quadR]
  · intro fuel
    unfold CF.div opCF viaSurd
    rw [if_neg (by decide), h3, Surd.ok_bind]
    simp only [h1, Surd.ok_bind, h2]
    unfold Surd.toContfracUnwrap
    rw [(Surd.surd_toContfrac_returns_refuted cfg).2 fuel]

end CF
end NumIrr
