/-
C112: homographic functions of quadratic numbers agree with the arithmetic of surds.
-/
import Verif.Props.Homo
import Verif.Props.SurdCF
import Verif.Props.SurdArith
import Verif.Props.CFIter
import Verif.Lemmas.CFShort

namespace NumIrr
open Lagrange

namespace CF

/-- **C112** for a periodic fraction `c` of a positive number `x`, `c.coeffs().homo(p, q, k, d)` yields, at every call, the
next coefficient of any periodic fraction of `(px + q)/(kx + d)`. -/
theorem cf_homo (c c' : CF) (h : c.Wf) (hp : c.p ≠ []) (h' : c'.Wf) (hp' : c'.p ≠ []) (x : ℝ) (hx : 0 < x)
    (hv : c.HasVal x) (p q k d : ℤ) (p0 : 0 ≤ p) (q0 : 0 ≤ q) (k0 : 0 ≤ k) (d0 : 0 ≤ d) (hdet : p * d ≠ q * k)
    (hv' : c'.HasVal ((p * x + q) / (k * x + d))) (n : ℕ) :
    ∃ outs s, Outs Homo.Call (Homo.new (fun i => itemAt SignedIter.next i c.coeffs) p q k d) outs s ∧ outs.length = n ∧
      ∀ i (hi : i < outs.length), itemAt SignedIter.next i c'.coeffs = some outs[i] := by
  obtain ⟨-, hirr, hneg, -, hco⟩ := coeff_of_val h hp hv
  obtain ⟨h0', -, hneg', -, hco'⟩ := coeff_of_val h' hp' hv'
  rw [abs_of_pos hx] at hirr hco
  have hy : 0 ≤ (p * x + q) / (k * x + d) := by
    have p1 : (0 : ℝ) ≤ p := by exact_mod_cast p0
    have q1 : (0 : ℝ) ≤ q := by exact_mod_cast q0
    have k1 : (0 : ℝ) ≤ k := by exact_mod_cast k0
    have d1 : (0 : ℝ) ≤ d := by exact_mod_cast d0
    positivity
  rw [abs_of_nonneg hy] at hco'
  have n1 : c.neg = false := by rw [hneg]; simp [hx.le]
  have n2 : c'.neg = false := by rw [hneg']; simpa using hy
  have hsrc : (fun i => itemAt SignedIter.next i c.coeffs) = fun i => some ⌊tails x i⌋ := by
    funext i
    rw [cf_coeffs, if_pos (.inl hp), n1, ← hco i]
    rfl
  rw [hsrc]
  obtain ⟨s, hs⟩ := Homo.homo_productive x hirr hx p q k d p0 q0 k0 d0 hdet n
  refine ⟨_, s, hs, by simp, fun i hi => ?_⟩
  rw [cf_coeffs, if_pos (.inl hp'), n2]
  simp only [List.getElem_map, List.getElem_range]
  rw [← hco' i]
  rfl

end CF

namespace Surd

/-- **C112** so for a surd `x > 0` and its computed fraction, `homo(p, q, k, d)` yields the coefficients of the fraction computed
for `(x * p + q) / (x * k + d)`, unless one of the two conversions replaces its number by the conjugate (C35). -/
theorem surd_homo (cfg : Cfg) (s s1 s2 s3 s4 u : Surd) (hs : s.RealOk) (hpos : 0 < s.val) (p q k d : ℤ)
    (p0 : 0 ≤ p) (q0 : 0 ≤ q) (k0 : 0 ≤ k) (d0 : 0 ≤ d) (hdet : p * d ≠ q * k)
    (e1 : Surd.mulInt cfg s p = .ok s1) (e2 : Surd.addInt cfg s1 q = .ok s2) (e3 : Surd.mulInt cfg s k = .ok s3)
    (e4 : Surd.addInt cfg s3 d = .ok s4) (e5 : Surd.div cfg s2 s4 = .ok u) (fuel fuel' : ℕ) (c c' : CF)
    (hc : s.toContfrac cfg fuel = some (.ok (some c))) (hc' : u.toContfrac cfg fuel' = some (.ok (some c')))
    (hv : ¬ Swapped s) (hv' : ¬ Swapped u) (n : ℕ) :
    ∃ outs st, Outs Homo.Call (Homo.new (fun i => itemAt CF.SignedIter.next i c.coeffs) p q k d) outs st ∧
      outs.length = n ∧ ∀ i (hi : i < outs.length), itemAt CF.SignedIter.next i c'.coeffs = some outs[i] := by
  have lin : ∀ (m w : ℤ) (t1 t2 : Surd), Surd.mulInt cfg s m = .ok t1 → Surd.addInt cfg t1 w = .ok t2 →
      t2.RealOk ∧ t2.val = m * s.val + w := by
    intro m w t1 t2 f1 f2
    obtain ⟨z, g1, g2, g3⟩ := surd_mulInt_value cfg s m (hs.toOk cfg)
    rw [f1] at g1
    cases g1
    obtain ⟨z', g4, g5, g6⟩ := surd_addInt_value cfg t1 w g3
    rw [f2] at g4
    cases g4
    refine real_transfer g6.toNormal ?_
    rw [g5, g2, hs.valC]
    push_cast
    ring
  obtain ⟨r2, v2⟩ := lin p q s1 s2 e1 e2
  obtain ⟨r4, v4⟩ := lin k d s3 s4 e3 e4
  obtain ⟨h0, hu, vu⟩ := surd_div_value_real cfg s2 s4 u r2 r4 e5
  rw [v2, v4] at vu
  rw [v4] at h0
  have irr : ∀ (v : Surd) (fl : ℕ) (cc : CF), v.RealOk → v.toContfrac cfg fl = some (.ok (some cc)) → v.r ≠ 0 := by
    intro v fl cc hv hcc e
    obtain ⟨N, hN⟩ := surd_toContfrac_rational cfg v hv e
    rw [hN] at hcc
    split at hcc <;> cases hcc
  have hr := irr s fuel c hs hc
  have hru := irr u fuel' c' hu hc'
  obtain ⟨w1, w2, -⟩ := surd_toContfrac_value cfg s hs hr fuel c hc
  obtain ⟨w3, w4, -⟩ := surd_toContfrac_value cfg u hu hru fuel' c' hc'
  have hupos : 0 ≤ u.val := by
    rw [vu]
    have p1 : (0 : ℝ) ≤ p := by exact_mod_cast p0
    have q1 : (0 : ℝ) ≤ q := by exact_mod_cast q0
    have k1 : (0 : ℝ) ≤ k := by exact_mod_cast k0
    have d1 : (0 : ℝ) ≤ d := by exact_mod_cast d0
    positivity
  have hcv := surd_toContfrac_value_partial cfg s hs hr hv (fun hf => absurd hf.1 (by linarith)) fuel c hc
  have hcu := surd_toContfrac_value_partial cfg u hu hru hv' (fun hf => absurd hf.1 (by linarith)) fuel' c' hc'
  rw [vu] at hcu
  exact CF.cf_homo c c' w1 w2 w3 w4 s.val hpos hcv p q k d p0 q0 k0 d0 hdet hcu n

/-- `(2√7 + 1)/(√7 + 3)`: the fraction computed by the arithmetic and the first outputs of `homo` -/
example : mulInt ⟨false, true⟩ ⟨0, 1, 1, 7⟩ 2 = .ok ⟨0, 2, 1, 7⟩ ∧ addInt ⟨false, true⟩ ⟨0, 2, 1, 7⟩ 1 = .ok ⟨1, 2, 1, 7⟩ ∧
    mulInt ⟨false, true⟩ ⟨0, 1, 1, 7⟩ 1 = .ok ⟨0, 1, 1, 7⟩ ∧ addInt ⟨false, true⟩ ⟨0, 1, 1, 7⟩ 3 = .ok ⟨3, 1, 1, 7⟩ ∧
    div ⟨false, true⟩ ⟨1, 2, 1, 7⟩ ⟨3, 1, 1, 7⟩ = .ok ⟨-11, 5, 2, 7⟩ ∧
    toContfrac ⟨false, true⟩ 10 ⟨0, 1, 1, 7⟩ = some (.ok (some ⟨[2], [1, 1, 1, 4], false⟩)) ∧
    toContfrac ⟨false, true⟩ 10 ⟨-11, 5, 2, 7⟩ = some (.ok (some ⟨[1], [8, 1, 2, 1, 8, 13], false⟩)) := by decide +kernel

end Surd
end NumIrr
