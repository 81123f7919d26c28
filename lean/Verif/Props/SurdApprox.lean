/-
C59: rational approximation of quadratic surds.
-/
import Verif.Props.SurdCF
import Verif.Props.CFIter
import Verif.Props.CFRat

namespace NumIrr
namespace Surd

/-- C59, restricted: for irrational numbers with a conjugate of opposite sign and a limit of at least one, `approximated`
returns a rational that is not above the limit in its denominator, is never called exact, and differs from the number by
at most `1/(q·limit)`.  (Missing: the documented bound `1/limit²`, and the other numbers, on which the conversion to a
continued fraction may loop or go wrong; see `surd_approximated_refuted`.) -/
theorem surd_approximated_partial (cfg : Cfg) (s : Surd) (h : s.RealOk) (hn : s.a * s.a < s.r * s.b * s.b) (limit : ℤ)
    (hl : 1 ≤ limit) :
    ∃ F, ∀ fuel, F ≤ fuel → ∃ q, s.approximated cfg fuel limit = some (.ok (.approximated q)) ∧ (q.den : ℤ) ≤ limit ∧
      |s.val - q| ≤ 1 / ((q.den : ℝ) * limit) := by
  obtain ⟨N, c, h1, h2, h3, -, h4⟩ := surd_toContfrac_returns_partial cfg s h hn
  obtain ⟨F, hF⟩ := CF.cf_approximated_partial c h2 s.val h4 limit hl
  refine ⟨max N F, fun fuel hf => ?_⟩
  obtain ⟨r, n, h5, -, h6, h7, h8⟩ := hF fuel (by omega)
  have hirr : ¬ c.isRational = true := by simp [CF.isRational, h3]
  have e : s.approximated cfg fuel limit = some (.ok r) := by
    unfold approximated toContfracUnwrap
    rw [h1 fuel (by omega)]
    exact h5
  cases r with
  | exact v => exact absurd ((CF.cf_isRational c h2 s.val h4).2 ⟨v, h7.1 ⟨v, rfl⟩⟩) hirr
  | approximated q => exact ⟨q, e, h6, h8⟩

example : RealOk ⟨1, 1, 2, 5⟩ ∧ approximated ⟨false, true⟩ 20 ⟨1, 1, 2, 5⟩ 100 = some (.ok (.approximated (144 / 89))) := by
  decide +kernel

/-- In general every answer on a real irrational number is about its `cfValue`. -/
theorem surd_approximated_value (cfg : Cfg) (s : Surd) (h : s.RealOk) (hr : s.r ≠ 0) (limit : ℤ) (hl : 1 ≤ limit) :
    ((∃ F, ∀ fuel, F ≤ fuel → ∃ q, s.approximated cfg fuel limit = some (.ok (.approximated q)) ∧
      (q.den : ℤ) ≤ limit ∧ |s.cfValue - q| ≤ 1 / ((q.den : ℝ) * limit)) ↔ ¬ Hangs s.cfDisc s.cfStart) ∧
    (Hangs s.cfDisc s.cfStart → ∀ fuel, s.approximated cfg fuel limit = none) := by
  obtain ⟨h1, h2, -⟩ := surd_toContfrac_returns_iff cfg s h hr
  have hang : Hangs s.cfDisc s.cfStart → ∀ fuel, s.approximated cfg fuel limit = none := fun hh fuel => by
    unfold approximated toContfracUnwrap
    rw [h2.1 hh fuel]
  refine ⟨⟨?_, fun hh => ?_⟩, hang⟩
  · rintro ⟨F, hF⟩ hh
    obtain ⟨q, e, -⟩ := hF F le_rfl
    rw [hang hh] at e
    cases e
  · obtain ⟨N, c, h3⟩ := h1.1 hh
    obtain ⟨h4, h5, h6⟩ := surd_toContfrac_value cfg s h hr N c (h3 N le_rfl)
    obtain ⟨F, hF⟩ := CF.cf_approximated_partial c h4 s.cfValue h6 limit hl
    refine ⟨max N F, fun fuel hf => ?_⟩
    obtain ⟨r, n, h7, -, h8, h9, h10⟩ := hF fuel (by omega)
    have hirr : ¬ c.isRational = true := by simp [CF.isRational, h5]
    have e : s.approximated cfg fuel limit = some (.ok r) := by
      unfold approximated toContfracUnwrap
      rw [h3 fuel (by omega)]
      exact h7
    cases r with
    | exact v => exact absurd ((CF.cf_isRational c h4 s.cfValue h6).2 ⟨v, h9.1 ⟨v, rfl⟩⟩) hirr
    | approximated q => exact ⟨q, e, h8, h10⟩

/-- Complex numbers panic. -/
theorem surd_approximated_complex (cfg : Cfg) (s : Surd) (h : s.r < 0) (fuel : Nat) (limit : ℤ) :
    s.approximated cfg fuel limit = some (.error .unwrapNone) := by
  unfold approximated toContfracUnwrap
  rw [surd_toContfrac_complex cfg s h]
example : (Surd.mk 1 1 2 (-5)).Ok ⟨true, true⟩ ∧
    approximated ⟨true, true⟩ 20 ⟨1, 1, 2, -5⟩ 100 = some (.error .unwrapNone) := by decide +kernel

/-- C59 is false: the bound fails for `√2` and limit `169` (`99/70`), a rational number panics, `-3 + √7` is approximated
by `1/3`, and `3 - √2` never returns. -/
theorem surd_approximated_refuted (cfg : Cfg) :
    (approximated cfg 10 ⟨0, 1, 1, 2⟩ 169 = some (.ok (.approximated (99 / 70))) ∧
      1 / (169 : ℝ) ^ 2 < |val ⟨0, 1, 1, 2⟩ - (99 / 70 : ℚ)|) ∧
    (∃ p, approximated cfg 10 ⟨22, 0, 7, 0⟩ 100 = some (.error p)) ∧
    approximated cfg 10 ⟨-3, 1, 1, 7⟩ 5 = some (.ok (.approximated (1 / 3))) ∧
    (∀ fuel, approximated cfg fuel ⟨3, -1, 1, 2⟩ 100 = none) := by
  refine ⟨⟨?_, ?_⟩, ⟨if cfg.debug then .debugAssert else .divZero, ?_⟩, ?_, ?_⟩
  · obtain ⟨c, d⟩ := cfg; cases c <;> cases d <;> decide +kernel
  · have h1 : √(2 : ℝ) < 1.41423 := by rw [Real.sqrt_lt' (by norm_num)]; norm_num
    unfold val quadR
    rw [abs_sub_comm]
    apply lt_of_lt_of_le _ (le_abs_self _)
    push_cast
    norm_num
    linarith
  · obtain ⟨c, d⟩ := cfg; cases c <;> cases d <;> decide +kernel
  · obtain ⟨c, d⟩ := cfg; cases c <;> cases d <;> decide +kernel
  · intro fuel
    unfold approximated toContfracUnwrap
    rw [(surd_toContfrac_returns_refuted cfg).2 fuel]

end Surd
end NumIrr
