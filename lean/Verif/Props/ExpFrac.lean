/-
C45: the generalized continued fraction of `exp(t)` for integers `t`.
-/
import Verif.Props.GConvergents
import Mathlib.Analysis.SpecialFunctions.Exponential

namespace NumIrr

open Filter Topology Finset

/-- the pairs `(1,1), (t,1), (-t,2+t), (-2t,3+t), …` -/
def expG (t : ℤ) (k : ℕ) : ℤ × ℤ :=
  if k = 0 then (1, 1) else if k = 1 then (t, 1) else (-(((k : ℤ) - 1) * t), k + t)

namespace ExpCoeffs

theorem stream_from (t : ℤ) (i k : ℕ) : stream next ⟨t, (i : ℤ)⟩ k = some (expG t (i + k)) := by
  induction k generalizing i with
  | zero =>
    simp only [stream, next, expG, Nat.add_zero]
    by_cases h0 : i = 0
    · simp [h0]
    · by_cases h1 : i = 1
      · simp [h1]
      · have h0' : (i : ℤ) ≠ 0 := by exact_mod_cast h0
        have h1' : (i : ℤ) ≠ 1 := by exact_mod_cast h1
        simp [h0, h1, h1']
  | succ k ih =>
    have : (next ⟨t, (i : ℤ)⟩).2 = ⟨t, ((i + 1 : ℕ) : ℤ)⟩ := by simp [next]
    rw [stream, this, ih (i + 1)]
    congr 2; omega

/-- C45, the pairs -/
theorem exp_pairs (t : ℤ) (k : ℕ) : stream next (new t) k = some (expG t k) := by
  have := stream_from t 0 k
  rw [Nat.zero_add] at this
  exact this

end ExpCoeffs

/-- numerators: `n!·Σ tᵏ/k!` -/
def expS (t : ℤ) : ℕ → ℤ
  | 0 => 1
  | n + 1 => (n + 1) * expS t n + t ^ (n + 1)

theorem expS_eq (t : ℤ) (n : ℕ) : (expS t n : ℚ) = n.factorial * ∑ k ∈ range (n + 1), (t : ℚ) ^ k / k.factorial := by
  induction n with
  | zero => simp [expS]
  | succ n ih =>
    rw [sum_range_succ, mul_add, Nat.factorial_succ]
    have h1 : ((n + 1) * n.factorial : ℚ) ≠ 0 := by positivity
    simp only [expS]
    push_cast
    rw [ih]
    field_simp

theorem exp_gP (t : ℤ) (n : ℕ) : gP (expG t) (n + 1) = expS t n ∧ gQ (expG t) (n + 1) = n.factorial := by
  suffices H : (gP (expG t) (n + 1) = expS t n ∧ gQ (expG t) (n + 1) = n.factorial) ∧
      gP (expG t) (n + 2) = expS t (n + 1) ∧ gQ (expG t) (n + 2) = (n + 1).factorial from H.1
  induction n with
  | zero =>
    rw [gP_rec, gQ_rec, gP_one, gQ_one]
    simp [expG, expS]
  | succ n ih =>
    obtain ⟨⟨h1, h2⟩, h3, h4⟩ := ih
    refine ⟨⟨h3, h4⟩, ?_⟩
    have e : expG t (n + 1 + 1) = (-(((n : ℤ) + 1) * t), n + 2 + t) := by
      simp only [expG]
      rw [if_neg (by omega), if_neg (by omega)]
      push_cast
      congr 1; ring
    have e1 := gP_rec (expG t) (n + 1)
    have e2 := gQ_rec (expG t) (n + 1)
    rw [e, show n + 1 + 1 = n + 2 from rfl, h3, h1] at e1
    rw [e, show n + 1 + 1 = n + 2 from rfl, h4, h2] at e2
    constructor
    · rw [e1]; simp only [expS]; push_cast; ring
    · rw [e2, Nat.factorial_succ (n + 1), Nat.factorial_succ n]; push_cast; ring

namespace GIter

/-- C45: whatever the integer type, the `n`-th convergent of `exp(t)` is the `n`-th partial sum of the exponential
series. -/
theorem exp_convergents (ty : IntTy) (t : ℤ) {outs : List ℚ} {s : GIter}
    (h : Outs (ConvCall ty) (GIter.new (stream ExpCoeffs.next (ExpCoeffs.new t))) outs s) (n : ℕ) (hn : n < outs.length) :
    outs[n] = ∑ k ∈ range (n + 1), (t : ℚ) ^ k / k.factorial := by
  have hc := (conv_outs ty _ (expG t) (fun k p hk => by rw [ExpCoeffs.exp_pairs] at hk; exact Option.some.inj hk) h).2 n hn
  obtain ⟨h1, h2⟩ := exp_gP t n
  rw [hc.2, h1, h2, expS_eq]
  have : ((n.factorial : ℕ) : ℚ) ≠ 0 := by positivity
  push_cast
  rw [mul_div_cancel_left₀ _ this]

/-- C45: for unbounded integers every convergent is computed; there is no panic and no end. -/
theorem exp_convergents_all (ty : IntTy) (hf : ∀ n, ty.fits n = true) (t : ℤ) (n : ℕ) :
    ∃ s, Outs (ConvCall ty) (GIter.new (stream ExpCoeffs.next (ExpCoeffs.new t)))
      ((List.range n).map fun m => ∑ k ∈ range (m + 1), (t : ℚ) ^ k / k.factorial) s := by
  have hsrc : stream ExpCoeffs.next (ExpCoeffs.new t) = fun k => some (expG t k) := funext (ExpCoeffs.exp_pairs t)
  rw [hsrc]
  suffices H : ∃ s, Outs (ConvCall ty) (GIter.new fun k => some (expG t k))
      ((List.range n).map fun m => ∑ k ∈ range (m + 1), (t : ℚ) ^ k / k.factorial) s ∧
      ConvAt (expG t) (fun k => some (expG t k)) n s from ⟨_, H.choose_spec.1⟩
  induction n with
  | zero => exact ⟨_, Outs.nil _, rfl, rfl, Block.Scal.refl _⟩
  | succ n ih =>
    obtain ⟨s, hs, h1⟩ := ih
    obtain ⟨e1, e2⟩ := exp_gP t n
    have hq : gQ (expG t) (n + 1) ≠ 0 := by rw [e2]; positivity
    obtain ⟨s', h2, h3⟩ := (convNext_of hf h1 rfl).1 hq
    refine ⟨s', ?_, h3⟩
    rw [List.range_succ, List.map_append, List.map_singleton]
    refine Outs.snoc hs ?_
    unfold ConvCall
    rw [h2, e1, e2, expS_eq]
    have : ((n.factorial : ℕ) : ℚ) ≠ 0 := by positivity
    push_cast
    rw [mul_div_cancel_left₀ _ this]

/-- C45: these convergents tend to `eᵗ`. -/
theorem exp_limit (t : ℤ) :
    Tendsto (fun n => ((∑ k ∈ range (n + 1), (t : ℚ) ^ k / k.factorial : ℚ) : ℝ)) atTop (𝓝 (Real.exp t)) := by
  have h := (NormedSpace.expSeries_div_hasSum_exp (t : ℝ)).tendsto_sum_nat.comp (tendsto_add_atTop_nat 1)
  rw [← Real.exp_eq_exp_ℝ] at h
  refine h.congr fun n => ?_
  simp [Function.comp]

/-- `exp(1)`: 1, 2, 5/2, 8/3, 65/24 -/
example : convRun IntTy.big 5 (GIter.new (stream ExpCoeffs.next (ExpCoeffs.new 1)))
    = ([some 1, some 2, some (5 / 2), some (8 / 3), some (65 / 24)], none) := by decide +kernel

/-- `exp(-2)`: a zero partial denominator does no harm -/
example : convRun IntTy.big 4 (GIter.new (stream ExpCoeffs.next (ExpCoeffs.new (-2))))
    = ([some 1, some (-1), some 1, some (-1 / 3)], none) := by decide +kernel

end GIter
end NumIrr
