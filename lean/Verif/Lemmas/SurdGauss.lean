/- The normal form of Gaussian integers. -/
import Verif.Lemmas.SurdBin

namespace NumIrr
namespace Surd

/-- an invariant of `reduce` that makes `is_gaussint` complete -/
def GInv (s : Surd) : Prop := IsSquare (-s.r) → s.c ∣ s.a → s.c * s.c ∣ s.r → IsUnit s.c

theorem reduceFactor_c {s : Surd}
    (h : IsSquare (igcd (igcd s.a s.c * igcd s.a s.c) s.r)) :
    (reduceFactor s).1.c = s.c.tdiv (isqrt (igcd (igcd s.a s.c * igcd s.a s.c) s.r)) := by
  unfold reduceFactor
  simp only
  rw [if_pos ((isqrt_mul_self_eq_iff (igcd_nonneg _ _)).mpr h)]

theorem reduceIrr_ginv {s : Surd} (hc : s.c ≠ 0) (hr : s.r ≠ 0) : GInv (reduceIrr s) := by
  rintro ⟨m, hm⟩ hca hcr
  obtain ⟨k, g, hk, hg, e1, e2, e3, e4, _⟩ := reduceIrr_spec hc hr
  have hdvd : s.c ∣ s.a := by
    rw [e1, e3]; exact mul_dvd_mul_right (mul_dvd_mul_right hca _) _
  have hG : igcd s.a s.c = s.c.natAbs := by
    unfold igcd; rw [Int.gcd_eq_natAbs_right hdvd]
  have hGG : igcd s.a s.c * igcd s.a s.c = s.c * s.c := by rw [hG]; exact Int.natAbs_mul_self
  have hr2 : s.r = -(k * m * (k * m)) := by rw [e4]; linear_combination (-(k*k)) * hm
  have hsq : IsSquare (igcd (igcd s.a s.c * igcd s.a s.c) s.r) := by
    rw [hGG, hr2]
    refine ⟨igcd s.c (k * m), ?_⟩
    unfold igcd
    rw [Int.gcd_neg, ← sq, ← sq, Int.pow_gcd_pow, sq]; push_cast; rfl
  -- the factor removed is the root of this gcd
  obtain ⟨k', hk', f1, f2, f3, f4, f5⟩ := reduceFactor_spec hc hr
  have hkk : k' * k' = igcd (igcd s.a s.c * igcd s.a s.c) s.r := by
    have h1 := reduceFactor_c hsq
    have h2 := (isqrt_mul_self_eq_iff (igcd_nonneg _ _)).mpr hsq
    have hcF : (reduceFactor s).1.c ≠ 0 := by intro e; rw [e, zero_mul] at f2; exact hc f2
    have hd : isqrt (igcd (igcd s.a s.c * igcd s.a s.c) s.r) ∣ s.c := by
      have : isqrt (igcd (igcd s.a s.c * igcd s.a s.c) s.r) ^ 2 ∣ s.c ^ 2 := by
        rw [sq, sq, h2]; exact (igcd_dvd_left _ _).trans (by rw [hGG])
      exact (Int.pow_dvd_pow_iff (by norm_num)).mp this
    have h3 := tdiv_mul_of_dvd hd
    rw [← h1] at h3
    have : k' = isqrt (igcd (igcd s.a s.c * igcd s.a s.c) s.r) :=
      mul_left_cancel₀ hcF (f2.symm.trans h3.symm)
    rw [this]; exact h2
  have hkeq : k' = k := by
    have h5 : (reduceIrr s).r = (reduceFactor s).1.r := rfl
    rw [h5] at e4
    have hr0 : (reduceFactor s).1.r ≠ 0 := by intro e; rw [e, mul_zero] at f3; exact hr f3
    have : k' * k' = k * k := mul_right_cancel₀ hr0 (f3.symm.trans e4)
    nlinarith
  rw [hkeq] at hkk
  have hd : ((reduceIrr s).c * k) * ((reduceIrr s).c * k) ∣ k * k := by
    rw [hkk]
    apply dvd_igcd
    · rw [hGG]
      have : (reduceIrr s).c * k ∣ s.c := ⟨g, by rw [e3]; ring⟩
      exact mul_dvd_mul this this
    · rw [e4]
      have := mul_dvd_mul_left (k * k) hcr
      rwa [show (reduceIrr s).c * k * ((reduceIrr s).c * k) = k * k * ((reduceIrr s).c * (reduceIrr s).c) by ring]
  have : (reduceIrr s).c * (reduceIrr s).c ∣ 1 := by
    have : (k * k) * ((reduceIrr s).c * (reduceIrr s).c) ∣ (k * k) * 1 := by
      rwa [mul_one, show k * k * ((reduceIrr s).c * (reduceIrr s).c) = (reduceIrr s).c * k * ((reduceIrr s).c * k) by ring]
    exact Int.dvd_of_mul_dvd_mul_left (mul_pos hk hk).ne' this
  exact isUnit_of_dvd_one ((Dvd.intro _ rfl).trans this)

theorem GInv.of_r {s : Surd} (hn : s.Normal) (hr : 0 ≤ s.r) : GInv s := by
  rintro ⟨m, hm⟩ hca _
  have hr0 : s.r = 0 := by nlinarith [mul_self_nonneg m]
  exact hn.coprime s.c hca (by rw [hn.rational.mpr hr0]; exact dvd_zero _) dvd_rfl

theorem reduce_ginv {s t : Surd} (h : reduce s = .ok t) : GInv t := by
  have hc : s.c ≠ 0 := by
    intro e; unfold reduce at h; rw [if_pos e] at h; cases h
  obtain ⟨t', h', _, hn, _⟩ := reduce_spec hc
  rw [h] at h'; cases h'
  have hc1 : (reduceSquare s).c ≠ 0 := by rw [reduceSquare_c]; exact hc
  by_cases h0 : (reduceSquare s).b = 0 ∨ (reduceSquare s).r = 0
  · apply GInv.of_r hn
    unfold reduce at h
    rw [if_neg hc] at h
    simp only [if_pos h0] at h
    cases h
    unfold reduceSign reduceRat
    split <;> simp
  · push Not at h0
    have hi := reduceIrr_ginv hc1 h0.2
    unfold reduce at h
    rw [if_neg hc] at h
    simp only [if_neg (not_or.mpr h0)] at h
    cases h
    unfold reduceSign
    split
    · intro e1 e2 e3
      simp only [zero_sub] at e1 e2 e3 ⊢
      rw [neg_dvd, dvd_neg] at e2
      rw [neg_mul_neg] at e3
      exact (hi e1 e2 e3).neg
    · exact hi

theorem new_ginv {cfg : Cfg} {a b c r : ℤ} {t : Surd} (h : new cfg a b c r = .ok t) : GInv t := by
  unfold new at h
  split at h
  · cases h
  · exact reduce_ginv h

theorem fromCoeffs_ginv {cfg : Cfg} {x : Coeffs} {r : ℤ} {t : Surd}
    (h : fromCoeffs cfg x r = .ok t) : GInv t := new_ginv (h : new cfg _ _ _ _ = _)

theorem neg_ginv {s : Surd} (h : GInv s) : GInv (neg s) := by
  intro e1 e2 e3
  simp only [neg, dvd_neg] at *
  exact h e1 e2 e3

theorem conj_ginv {s : Surd} (h : GInv s) : GInv (conj s) := h

end Surd
end NumIrr
