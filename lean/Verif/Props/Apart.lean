/-
C59, C88, C90, C94, C127: the properties proved for numbers with a conjugate of the opposite sign, for the larger class of numbers
apart from their conjugates.
-/
import Verif.Props.CFFar
import Verif.Props.SurdShort
import Verif.Props.SurdApprox
import Verif.Props.RoundTrip
import Verif.Props.PFormula
import Verif.Props.CFLaws

namespace NumIrr
namespace Surd

/-- no integer part is computed one too large -/
private theorem split_not_tooLarge {s : Surd} (h : s.RealOk) (hz : CF.Apart s.val) (n : ℕ) :
    ¬ TooLarge s.cfDisc (tails s.cfStart n) := by
  obtain ⟨hr, hs, hf⟩ := CF.apart_surd h hz
  have hst : s.cfStart = |s.val| := by
    unfold cfStart
    rw [if_neg fun hh => by have := hh.2; linarith]
  rw [hst]
  rintro ⟨P, Q, hQ, -, e, -⟩
  obtain ⟨u, v, hv0, e', -⟩ := split_tails h.real (h.irrational hr) n (split_abs h hs hf)
  obtain ⟨m, hm, hd⟩ := disc_root h hr
  rw [hd, e'] at e
  have hQ' : (Q : ℚ) < 0 := by exact_mod_cast hQ
  have hQR : (Q : ℝ) ≠ 0 := by exact_mod_cast hQ.ne
  refine CF.irr_of_nonsquare (h.irrational hr) (A := u) (B := v - m / Q) ?_ h.real (P / Q) ?_
  · have := div_neg_of_pos_of_neg hm hQ'
    linarith
  · push_cast
    rw [add_div] at e
    linear_combination e

/-- **C88** for numbers apart from their conjugates: shortest in both respects. -/
theorem surd_toContfrac_shortest_apart (cfg : Cfg) (s : Surd) (h : s.RealOk) (hz : CF.Apart s.val) (fuel : Nat) (c : CF)
    (hc : s.toContfrac cfg fuel = some (.ok (some c))) : c.ShortestHead ∧ c.ShortestPeriod :=
  surd_toContfrac_shortest_partial cfg s h (CF.apart_surd h hz).1 (split_not_tooLarge h hz) fuel c hc

/-- **C88**, the other half: however such a number is written as a surd, the fraction is the same. -/
theorem surd_toContfrac_same_apart (cfg : Cfg) (s t : Surd) (hs : s.RealOk) (ht : t.RealOk) (hz : CF.Apart s.val)
    (he : s.val = t.val) (fuel fuel' : Nat) (c c' : CF) (hc : s.toContfrac cfg fuel = some (.ok (some c)))
    (hc' : t.toContfrac cfg fuel' = some (.ok (some c'))) : c = c' := by
  have hz' : CF.Apart t.val := he ▸ hz
  obtain ⟨a1, a2, -⟩ := CF.apart_surd hs hz
  obtain ⟨b1, b2, -⟩ := CF.apart_surd ht hz'
  obtain ⟨k1, k2, -⟩ := surd_toContfrac_value cfg s hs a1 fuel c hc
  obtain ⟨l1, l2, -⟩ := surd_toContfrac_value cfg t ht b1 fuel' c' hc'
  obtain ⟨m1, m2⟩ := surd_toContfrac_shortest_apart cfg s hs hz fuel c hc
  obtain ⟨n1, n2⟩ := surd_toContfrac_shortest_apart cfg t ht hz' fuel' c' hc'
  exact CF.eq_of_val k1 k2 l1 l2 (surd_toContfrac_value_same_sign cfg s hs a2 fuel c hc)
    (he ▸ surd_toContfrac_value_same_sign cfg t ht b2 fuel' c' hc') m1 m2 n1 n2

/-- **C90** for these: the way to a fraction and back always returns, with the same number. -/
theorem surd_cf_surd_apart (cfg : Cfg) (s : Surd) (h : s.RealOk) (hz : CF.Apart s.val) :
    ∃ N c t, (∀ fuel, N ≤ fuel → s.toContfrac cfg fuel = some (.ok (some c))) ∧ c.toSurd cfg = .ok t ∧ t.RealOk ∧ t.val = s.val := by
  obtain ⟨N, c, h1, h2, -, h4, h5⟩ := CF.apart_toContfrac cfg h hz
  obtain ⟨t, k1, k2, k3⟩ := CF.cf_toSurd_partial cfg c h2 (.inr (.inl h4))
  exact ⟨N, c, t, h1, k1, k2, k3.unique h5⟩

/-- **C90**, from a fraction to a surd and back. -/
theorem cf_surd_cf_apart (cfg : Cfg) (c : CF) (hw : c.Wf) (hp : c.p ≠ []) (x : ℝ) (hx : c.HasVal x) (hz : CF.Apart x) (s : Surd)
    (hs : c.toSurd cfg = .ok s) :
    ∃ N c', (∀ fuel, N ≤ fuel → s.toContfrac cfg fuel = some (.ok (some c'))) ∧
      (c'.neg = c.neg ∧ ∀ n, coeffAt c'.a c'.p n = coeffAt c.a c.p n) ∧
      (c' = c ↔ c.ShortestHead ∧ c.ShortestPeriod) := by
  obtain ⟨h1, h2⟩ := CF.cf_toSurd_value cfg c hw s hs
  obtain rfl := hx.unique h2
  obtain ⟨N, c', k1, k2, k3, -, k4⟩ := CF.apart_toContfrac cfg h1 hz
  have hsh := surd_toContfrac_shortest_apart cfg s h1 hz N c' (k1 N le_rfl)
  obtain ⟨-, -, m1, -, m2⟩ := CF.coeff_of_val k2 k3 k4
  obtain ⟨-, -, m1', -, m2'⟩ := CF.coeff_of_val hw hp h2
  refine ⟨N, c', k1, ⟨by rw [m1, m1'], fun n => by exact_mod_cast (m2 n).trans (m2' n).symm⟩, ?_⟩
  constructor
  · rintro rfl; exact hsh
  · rintro ⟨n1, n2⟩
    exact CF.eq_of_val k2 k3 hw hp k4 h2 hsh.1 hsh.2 n1 n2

/-- **C59** for these: `approximated` returns a rational number that is not above the limit in its denominator and differs from
the number by at most `1/(q·limit)`. -/
theorem surd_approximated_apart (cfg : Cfg) (s : Surd) (h : s.RealOk) (hz : CF.Apart s.val) (limit : ℤ) (hl : 1 ≤ limit) :
    ∃ F, ∀ fuel, F ≤ fuel → ∃ q, s.approximated cfg fuel limit = some (.ok (.approximated q)) ∧ (q.den : ℤ) ≤ limit ∧
      |s.val - q| ≤ 1 / ((q.den : ℝ) * limit) := by
  obtain ⟨hr, hs, -⟩ := CF.apart_surd h hz
  obtain ⟨N, c, h1, -, -, -, h5⟩ := CF.apart_toContfrac cfg h hz
  have hv : s.cfValue = s.val := CF.HasVal.unique (surd_toContfrac_value cfg s h hr N c (h1 N le_rfl)).2.2 h5
  have := ((surd_approximated_value cfg s h hr limit hl).1).2 ((surd_toContfrac_returns_iff cfg s h hr).1.2 ⟨N, c, h1⟩)
  rwa [hv] at this

/-- `9 + 4√2`, whose conjugate is positive -/
example : CF.Apart (val ⟨9, 4, 1, 2⟩) ∧ toContfrac ⟨false, true⟩ 30 ⟨9, 4, 1, 2⟩ = some (.ok (some ⟨[14], [1, 1, 1, 10], false⟩)) ∧
    CF.toSurd ⟨false, true⟩ ⟨[14], [1, 1, 1, 10], false⟩ = .ok ⟨9, 1, 1, 32⟩ ∧
    approximated ⟨false, true⟩ 30 ⟨9, 4, 1, 2⟩ 20 = some (.ok (.approximated (44 / 3))) := by
  refine ⟨CF.far_apart ⟨9, 4, 2, by decide, by decide +kernel, by simp [val, quadR], ?_, by norm_num⟩, by decide +kernel,
    by decide +kernel, by decide +kernel⟩
  simp only [val, quadR]
  positivity

end Surd

namespace CF

/-- **C94** If the exact result of an operation is apart from its conjugate, the fraction returned is the shortest way of writing it. -/
theorem cf_bin_shortest_apart (cfg : Cfg) (fuel : Nat) (x y : CF) (hx : x.Wf) (hy : y.Wf) (hp : x.p ≠ [] ∨ y.p ≠ [])
    (v w : ℝ) (hv : x.HasVal v) (hw : y.HasVal w) (o : BinOp) (hz : Apart (o.real v w)) (z : CF)
    (h : o.run cfg fuel x y = some (.ok z)) :
    z.Wf ∧ z.p ≠ [] ∧ z.HasVal (o.real v w) ∧ z.ShortestHead ∧ z.ShortestPeriod := by
  obtain ⟨u, h1, h2, h3⟩ := bin_result cfg fuel hx hy hp hv hw o h
  rw [← h2] at hz ⊢
  obtain ⟨h4, h5, -⟩ := apart_surd h1 hz
  obtain ⟨k1, k2, -⟩ := Surd.surd_toContfrac_value cfg u h1 h4 fuel z h3
  exact ⟨k1, k2, Surd.surd_toContfrac_value_same_sign cfg u h1 h5 fuel z h3, Surd.surd_toContfrac_shortest_apart cfg u h1 hz fuel z h3⟩

/-- **C94** Two operations with the same exact result, apart from its conjugate, return the same fraction: with it the laws of
arithmetic hold for the fractions. -/
theorem cf_bin_same_apart (cfg : Cfg) (fuel fuel' : Nat) (x y x' y' : CF) (hx : x.Wf) (hy : y.Wf) (hx' : x'.Wf)
    (hy' : y'.Wf) (hp : x.p ≠ [] ∨ y.p ≠ []) (hp' : x'.p ≠ [] ∨ y'.p ≠ []) (v w v' w' : ℝ) (hv : x.HasVal v)
    (hw : y.HasVal w) (hv' : x'.HasVal v') (hw' : y'.HasVal w') (o o' : BinOp) (he : o.real v w = o'.real v' w')
    (hz : Apart (o.real v w)) (z z' : CF) (h : o.run cfg fuel x y = some (.ok z))
    (h' : o'.run cfg fuel' x' y' = some (.ok z')) : z = z' := by
  obtain ⟨a1, a2, a3, a4, a5⟩ := cf_bin_shortest_apart cfg fuel x y hx hy hp v w hv hw o hz z h
  rw [he] at hz
  obtain ⟨b1, b2, b3, b4, b5⟩ := cf_bin_shortest_apart cfg fuel' x' y' hx' hy' hp' v' w' hv' hw' o' hz z' h'
  rw [← he] at b3
  exact eq_of_val a1 a2 b1 b2 a3 b3 a4 a5 b4 b5

/-- `(1 + √2)√2` and `√2 + 2` -/
example : CF.mul ⟨false, true⟩ 30 ⟨[2], [2], false⟩ ⟨[1], [2], false⟩ = some (.ok ⟨[3], [2], false⟩) ∧
    CF.add ⟨false, true⟩ 30 ⟨[1], [2], false⟩ ⟨[2], [], false⟩ = some (.ok ⟨[3], [2], false⟩) ∧ Apart (2 + √2) :=
  ⟨by decide +kernel, by decide +kernel,
    far_apart ⟨2, 1, 2, by decide, by decide +kernel, by simp, by simp; positivity, by norm_num⟩⟩

end CF

namespace PFormula
open CF

private theorem apart_irr {v : ℝ} (hz : Apart v) : Irrational v := by
  rintro ⟨q, hq⟩
  obtain ⟨A, B, R, hR, hs, e, hB, -⟩ := hz
  refine irr_of_nonsquare hs (A := A) (B := B) ?_ hR q (e.symm.trans hq.symm)
  rintro rfl
  simp at hB

/-- an operation with a number -/
theorem cf_num_periodic_returns_apart (cfg : Cfg) (c : CF) (h : c.Wf) (hp : c.p ≠ []) (x : ℝ) (hx : c.HasVal x)
    (hs : c.a.length ≤ 2) (o : NumOp) (ho : o.Defined) (hz : Apart (o.real x)) :
    ∃ N w, (∀ fuel, N ≤ fuel → o.run cfg fuel c = some (.ok w)) ∧ w.Wf ∧ w.p ≠ [] ∧ w.a.length ≤ 2 ∧ w.HasVal (o.real x) := by
  obtain ⟨s, h1, h2, h3⟩ := cf_toSurd_partial cfg c h (.inr (.inl hs))
  obtain ⟨t, h4, h5, h6⟩ := (NumOp.surd_spec cfg o h2).1 ho
  rw [HasVal.unique hx h3] at hz ⊢
  rw [← h6] at hz ⊢
  obtain ⟨N, w, h7, h8⟩ := apart_toContfrac cfg h5 hz
  refine ⟨N, w, fun fuel hf => ?_, h8⟩
  rw [NumOp.run_eq, opNumber, if_neg (by simp [isRational, hp])]
  unfold viaSurd
  rw [h1, Surd.ok_bind, h4]
  simp only
  unfold Surd.toContfracUnwrap
  rw [h7 fuel hf]

/-- **C127** partial: changing a periodic fraction by numbers, step after step, returns the fraction of the result, if every
result is apart from its conjugate. -/
theorem pformula_chain_apart_partial (cfg : Cfg) (f : PFormula) (hc : f.Chain) (hl : f.Leaves) (he : f.Every Apart)
    (hp : f.leaf.1.p ≠ []) (ha : f.leaf.1.a.length ≤ 2) :
    ∃ N w, (∀ fuel, N ≤ fuel → f.run cfg fuel = some (.ok w)) ∧ w.Wf ∧ w.HasVal f.val := by
  suffices H : ∃ N w, (∀ fuel, N ≤ fuel → f.run cfg fuel = some (.ok w)) ∧ w.Wf ∧ w.HasVal f.val ∧ w.p ≠ [] ∧ w.a.length ≤ 2 by
    obtain ⟨N, w, h1, h2, h3, -⟩ := H
    exact ⟨N, w, h1, h2, h3⟩
  induction f with
  | frac c v => exact ⟨0, c, fun _ _ => rfl, hl.1, hl.2, hp, ha⟩
  | neg f ih =>
    obtain ⟨N, w, h1, h2, h3, h4, h5⟩ := ih hc hl he hp ha
    obtain ⟨g1, g2, -⟩ := cf_neg w _ h3
    refine ⟨N, w.neg', fun fuel hf => ?_, g2 h2, g1, ?_, ?_⟩
    · show andThen (f.run cfg fuel) _ = _
      rw [h1 fuel hf]; rfl
    · unfold neg'; split <;> exact h4
    · unfold neg'; split <;> exact h5
  | num o f ih =>
    obtain ⟨N, w, h1, h2, h3, h4, h5⟩ := ih hc.1 hl he.1 hp ha
    have hz : Apart (o.real f.val) := he.2 (by
      by_contra hi
      have hi : f.val ∈ Set.range ((↑) : ℚ → ℝ) := not_not.1 hi
      obtain ⟨q, hq⟩ := hi
      exact h4 ((cf_isRational w h2 _ h3).2 ⟨q, hq.symm⟩ |> fun h => by simpa [isRational] using h))
    obtain ⟨M, w', k1, k2, k3, k4, k5⟩ := cf_num_periodic_returns_apart cfg w h2 h4 _ h3 h5 o hc.2 hz
    refine ⟨max N M, w', fun fuel hf => ?_, k2, k5, k3, k4⟩
    show andThen (f.run cfg fuel) (fun c => o.run cfg fuel c) = _
    rw [h1 fuel (le_trans (le_max_left _ _) hf)]
    exact k1 fuel (le_trans (le_max_right _ _) hf)
  | bin o f g => exact hc.elim

/-- `√2·3 + 9`, whose conjugate is positive -/
example : (PFormula.num (.addRat 9) (.num (.mulInt 3) (.frac ⟨[1], [2], false⟩ √2))).Chain ∧
    (PFormula.num (.addRat 9) (.num (.mulInt 3) (.frac ⟨[1], [2], false⟩ √2))).Every Apart ∧
    (PFormula.num (.addRat 9) (.num (.mulInt 3) (.frac ⟨[1], [2], false⟩ √2))).run ⟨false, true⟩ 40 =
      some (.ok ⟨[13], [4, 8], false⟩) := by
  refine ⟨⟨⟨trivial, trivial⟩, trivial⟩, ⟨⟨trivial, fun _ => ?_⟩, fun _ => ?_⟩, by simp only [run]; decide +kernel⟩
  · exact oppConj_apart ⟨0, 3, 2, by decide, by decide +kernel, by simp [NumOp.real, val, mul_comm], by norm_num⟩
  · refine far_apart ⟨9, 3, 2, by decide, by decide +kernel, by simp [NumOp.real, val]; ring, ?_, by norm_num⟩
    simp only [NumOp.real, val]
    positivity

end PFormula
end NumIrr
