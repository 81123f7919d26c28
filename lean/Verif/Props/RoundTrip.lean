/-
C90: conversions between surds and continued fractions, one after the other.
-/
import Verif.Props.SurdShort

namespace NumIrr
namespace Surd

/-- From a surd to a fraction and back: if both conversions return, the result is the number the fraction stands for
(which is the number itself except in the two cases of C35). -/
theorem surd_cf_surd_value (cfg : Cfg) (s t : Surd) (h : s.RealOk) (hr : s.r ≠ 0) (fuel : Nat) (c : CF)
    (hc : s.toContfrac cfg fuel = some (.ok (some c))) (ht : c.toSurd cfg = .ok t) : t.RealOk ∧ t.val = s.cfValue := by
  obtain ⟨h1, -, h2⟩ := surd_toContfrac_value cfg s h hr fuel c hc
  obtain ⟨h3, h4⟩ := CF.cf_toSurd_value cfg c h1 t ht
  exact ⟨h3, h4.unique h2⟩

/-- C90, restricted: outside the two cases of C35 the way back never gives another number: it returns the same number, or
panics because of incompatible roots, which needs three coefficients before the period.  (Missing from the full claim:
those cases, and the panic, see `surd_cf_surd_refuted`.) -/
theorem surd_cf_surd_partial (cfg : Cfg) (s : Surd) (h : s.RealOk) (hr : s.r ≠ 0) (h1 : ¬ Swapped s) (h2 : ¬ Flipped s)
    (fuel : Nat) (c : CF) (hc : s.toContfrac cfg fuel = some (.ok (some c))) :
    (∃ t, c.toSurd cfg = .ok t ∧ t.RealOk ∧ t.val = s.val) ∨ c.toSurd cfg = .error .incompatible ∧ 3 ≤ c.a.length := by
  obtain ⟨hw, -, -⟩ := surd_toContfrac_value cfg s h hr fuel c hc
  have hv := surd_toContfrac_value_partial cfg s h hr h1 h2 fuel c hc
  cases ht : c.toSurd cfg with
  | error e =>
    obtain ⟨rfl, -, h3⟩ := CF.cf_toSurd_panics cfg c hw e ht
    exact .inr ⟨rfl, h3⟩
  | ok t =>
    obtain ⟨h3, h4⟩ := CF.cf_toSurd_value cfg c hw t ht
    exact .inl ⟨t, rfl, h3, h4.unique hv⟩

example : ∃ c, toContfrac ⟨false, false⟩ 20 ⟨30, -1, 1, 7⟩ = some (.ok (some c)) ∧
    c.toSurd ⟨false, false⟩ = .ok ⟨30, -1, 1, 7⟩ :=
  ⟨⟨[27, 2, 1], [4, 1, 1, 1], false⟩, by decide +kernel, by decide +kernel⟩

/-- C90 is false: `(8042 + 48√62)/11571` is converted to a fraction of its value, which is refused on the way back. -/
theorem surd_cf_surd_refuted (cfg : Cfg) : new cfg 8042 48 11571 62 = .ok ⟨8042, 48, 11571, 62⟩ ∧
    ∃ c, toContfrac cfg 20 ⟨8042, 48, 11571, 62⟩ = some (.ok (some c)) ∧ c.HasVal (val ⟨8042, 48, 11571, 62⟩) ∧
      c.toSurd cfg = .error .incompatible := by
  have e1 : new cfg 8042 48 11571 62 = .ok ⟨8042, 48, 11571, 62⟩ := by
    obtain ⟨c, d⟩ := cfg; cases c <;> cases d <;> decide +kernel
  have e2 : toContfrac cfg 20 ⟨8042, 48, 11571, 62⟩ = some (.ok (some ⟨[0, 1, 2, 1], [2, 20, 14, 27], false⟩)) := by
    obtain ⟨c, d⟩ := cfg; cases c <;> cases d <;> decide +kernel
  have hr : RealOk ⟨8042, 48, 11571, 62⟩ := ⟨(surd_new_normal cfg _ _ _ _ _ e1).toNormal, by decide⟩
  refine ⟨e1, _, e2, ?_, (CF.cf_toSurd_refuted cfg).2⟩
  refine surd_toContfrac_value_same_sign cfg _ hr ?_ 20 _ e2
  unfold val quadR
  push_cast
  positivity

/-- From a periodic fraction to a surd and back, when the conjugate of the number has the opposite sign: a fraction of
the same value, and the same fraction if it was written in the shortest way. -/
theorem cf_surd_cf_partial (cfg : Cfg) (c : CF) (hw : c.Wf) (hp : c.p ≠ []) (s : Surd) (hs : c.toSurd cfg = .ok s)
    (hn : s.a * s.a < s.r * s.b * s.b) :
    ∃ N c', (∀ fuel, N ≤ fuel → s.toContfrac cfg fuel = some (.ok (some c'))) ∧ c'.HasVal s.val ∧
      (c'.neg = c.neg ∧ ∀ n, coeffAt c'.a c'.p n = coeffAt c.a c.p n) ∧
      (c' = c ↔ c.ShortestHead ∧ c.ShortestPeriod) := by
  obtain ⟨h1, h2⟩ := CF.cf_toSurd_value cfg c hw s hs
  obtain ⟨N, c', k1, k2, k3, -, k4⟩ := surd_toContfrac_returns_partial cfg s h1 hn
  have hsh := surd_toContfrac_shortest_neg_conj cfg s h1 hn N c' (k1 N le_rfl)
  obtain ⟨-, -, m1, -, m2⟩ := CF.coeff_of_val k2 k3 k4
  obtain ⟨-, -, m1', -, m2'⟩ := CF.coeff_of_val hw hp h2
  refine ⟨N, c', k1, k4, ⟨by rw [m1, m1'], fun n => by exact_mod_cast (m2 n).trans (m2' n).symm⟩, ?_⟩
  constructor
  · rintro rfl; exact hsh
  · rintro ⟨n1, n2⟩
    exact CF.eq_of_val k2 k3 hw hp k4 h2 hsh.1 hsh.2 n1 n2

example : CF.toSurd ⟨false, false⟩ ⟨[1, 2], [2], false⟩ = .ok ⟨0, 1, 1, 2⟩ ∧ (0 : ℤ) * 0 < 2 * 1 * 1 ∧
    toContfrac ⟨false, false⟩ 20 ⟨0, 1, 1, 2⟩ = some (.ok (some ⟨[1], [2], false⟩)) := by decide +kernel

end Surd
end NumIrr
