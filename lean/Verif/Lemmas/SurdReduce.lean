/- Helper lemmas: the normalisation `reduce` step by step. -/
import Verif.Lemmas.Root

namespace NumIrr
namespace Surd

theorem quadC_congr {a b c r a' b' c' r' : ℤ} (hc : c ≠ 0) (hc' : c' ≠ 0)
    (h : ((a:ℂ) + b * rootC r) * c' = ((a':ℂ) + b' * rootC r') * c) :
    quadC a b c r = quadC a' b' c' r' := by
  have h1 : (c:ℂ) ≠ 0 := by exact_mod_cast hc
  have h2 : (c':ℂ) ≠ 0 := by exact_mod_cast hc'
  unfold quadC
  rw [div_eq_div_iff h1 h2, h]

/-- dividing numerator and denominator by a common factor -/
theorem quadC_scale {a b c r k : ℤ} (hk : k ≠ 0) :
    quadC (a * k) (b * k) (c * k) r = quadC a b c r := by
  have h1 : (k:ℂ) ≠ 0 := by exact_mod_cast hk
  unfold quadC
  push_cast
  rw [show ((a:ℂ) * k + b * k * rootC r) = ((a:ℂ) + b * rootC r) * k by ring,
    mul_div_mul_right _ _ h1]

/-- moving a square factor from the root to the denominator -/
theorem quadC_root_scale {a b c r k : ℤ} (hk : 0 < k) :
    quadC (a * k) b (c * k) (k * k * r) = quadC a b c r := by
  have h1 : (k:ℂ) ≠ 0 := by exact_mod_cast hk.ne'
  unfold quadC
  push_cast
  rw [rootC_sq_mul hk.le,
    show ((a:ℂ) * k + b * (k * rootC r)) = ((a:ℂ) + b * rootC r) * k by ring,
    mul_div_mul_right _ _ h1]

theorem quadC_root_move {a b c r k : ℤ} (hk : 0 ≤ k) :
    quadC a b c (k * k * r) = quadC a (b * k) c r := by
  unfold quadC
  rw [rootC_sq_mul hk]; push_cast; ring

theorem reduceSquare_of_square {s : Surd} (h : IsSquare s.r) :
    reduceSquare s = ⟨s.a + s.b * isqrt s.r, 0, s.c, 0⟩ := by
  have h0 : 0 ≤ s.r := by
    by_contra hn
    exact not_isSquare_of_neg (not_le.mp hn) h
  unfold reduceSquare
  simp only
  rw [if_pos ((isqrt_natAbs_iff s.r).mpr h), if_neg (not_lt.mpr h0), Int.natAbs_of_nonneg h0]

theorem reduceSquare_of_not_square {s : Surd} (h : ¬ IsSquare s.r) : reduceSquare s = s := by
  unfold reduceSquare
  simp only
  rw [if_neg (fun e => h ((isqrt_natAbs_iff s.r).mp e))]

theorem reduceSquare_valC (s : Surd) : (reduceSquare s).valC = s.valC := by
  by_cases h : IsSquare s.r
  · have h0 : 0 ≤ s.r := by
      by_contra hn
      exact not_isSquare_of_neg (not_le.mp hn) h
    rw [reduceSquare_of_square h]
    unfold valC quadC
    have e := (isqrt_mul_self_eq_iff h0).mpr h
    have : rootC s.r = (isqrt s.r : ℤ) := by
      conv_lhs => rw [← e]
      exact rootC_square (isqrt_nonneg _)
    rw [this]; push_cast; simp
  · rw [reduceSquare_of_not_square h]

theorem reduceSquare_c (s : Surd) : (reduceSquare s).c = s.c := by
  by_cases h : IsSquare s.r
  · rw [reduceSquare_of_square h]
  · rw [reduceSquare_of_not_square h]

theorem reduceRat_valC {s : Surd} (hc : s.c ≠ 0) (h : s.b = 0 ∨ s.r = 0) :
    (reduceRat s).valC = s.valC := by
  have hg := igcd_pos_right s.a hc
  have h1 := tdiv_mul_of_dvd (igcd_dvd_left s.a s.c)
  have h2 := tdiv_mul_of_dvd (igcd_dvd_right s.a s.c)
  have e : s.valC = quadC s.a 0 s.c 0 := by
    unfold valC quadC
    rcases h with h | h <;> simp [h]
  rw [e]
  unfold reduceRat valC
  simp only
  have := quadC_scale (a := s.a.tdiv (igcd s.a s.c)) (b := 0) (c := s.c.tdiv (igcd s.a s.c)) (r := 0) hg.ne'
  rw [h1, h2, zero_mul] at this
  exact this.symm

theorem tdiv_ne_zero_of_dvd {a g : ℤ} (h : g ∣ a) (ha : a ≠ 0) : a.tdiv g ≠ 0 := by
  intro e
  have := tdiv_mul_of_dvd h
  rw [e] at this; simp at this; exact ha this.symm

theorem isUnit_of_mul_dvd {g d a b c : ℤ} (hg : 0 < g)
    (hmax : ∀ k, k ∣ a → k ∣ b → k ∣ c → k ∣ g)
    (h1 : d * g ∣ a) (h2 : d * g ∣ b) (h3 : d * g ∣ c) : IsUnit d := by
  have h := hmax _ h1 h2 h3
  have : d * g ∣ 1 * g := by simpa using h
  have := Int.dvd_of_mul_dvd_mul_right hg.ne' this
  exact isUnit_of_dvd_one this

theorem reduceRat_normal {s : Surd} (hc : s.c ≠ 0) :
    (reduceRat s).c ≠ 0 ∧ (reduceRat s).b = 0 ∧ (reduceRat s).r = 0 ∧
    ∀ d : ℤ, d ∣ (reduceRat s).a → d ∣ (reduceRat s).c → IsUnit d := by
  have hg := igcd_pos_right s.a hc
  refine ⟨tdiv_ne_zero_of_dvd (igcd_dvd_right s.a s.c) hc, rfl, rfl, ?_⟩
  intro d ha hc'
  have h1 := tdiv_mul_of_dvd (igcd_dvd_left s.a s.c)
  have h2 := tdiv_mul_of_dvd (igcd_dvd_right s.a s.c)
  have k1 : d * igcd s.a s.c ∣ s.a := by
    conv_rhs => rw [← h1]
    exact mul_dvd_mul_right ha _
  have k2 : d * igcd s.a s.c ∣ s.c := by
    conv_rhs => rw [← h2]
    exact mul_dvd_mul_right hc' _
  exact isUnit_of_mul_dvd hg (fun k h _ h' => dvd_igcd h h') k1 k1 k2

/-- what `reduceFactor` does: it removes a factor `k` from `a`, `c` and `k²` from `r`. -/
theorem reduceFactor_spec {s : Surd} (hc : s.c ≠ 0) (hr : s.r ≠ 0) :
    ∃ k : ℤ, 0 < k ∧ s.a = (reduceFactor s).1.a * k ∧ s.c = (reduceFactor s).1.c * k ∧
      s.r = k * k * (reduceFactor s).1.r ∧ (reduceFactor s).1.b = s.b ∧
      igcd s.a s.c = (reduceFactor s).2 * k := by
  have hg := igcd_pos_right s.a hc
  unfold reduceFactor
  simp only
  split
  · next h =>
    have hgr := igcd_pos_right (igcd s.a s.c * igcd s.a s.c) hr
    have hk0 := isqrt_nonneg (igcd (igcd s.a s.c * igcd s.a s.c) s.r)
    generalize hgg : igcd (igcd s.a s.c * igcd s.a s.c) s.r = gg at *
    generalize hkk : isqrt gg = k at *
    have hk : 0 < k := by
      rcases eq_or_lt_of_le hk0 with h0 | h0
      · rw [← h0] at h; simp at h; omega
      · exact h0
    have hd2 : k * k ∣ igcd s.a s.c * igcd s.a s.c := by
      rw [h, ← hgg]; exact igcd_dvd_left _ _
    have hd : k ∣ igcd s.a s.c := by
      rw [← sq, ← sq] at hd2
      exact (Int.pow_dvd_pow_iff (by norm_num)).mp hd2
    refine ⟨k, hk, ?_, ?_, ?_, rfl, ?_⟩
    · exact (tdiv_mul_of_dvd (hd.trans (igcd_dvd_left _ _))).symm
    · exact (tdiv_mul_of_dvd (hd.trans (igcd_dvd_right _ _))).symm
    · have : gg ∣ s.r := by rw [← hgg]; exact igcd_dvd_right _ _
      rw [h, mul_comm]; exact (tdiv_mul_of_dvd this).symm
    · exact (tdiv_mul_of_dvd hd).symm
  · exact ⟨1, by norm_num, by simp, by simp, by simp, rfl, by simp⟩

theorem reduceIrr_spec {s : Surd} (hc : s.c ≠ 0) (hr : s.r ≠ 0) :
    ∃ k g : ℤ, 0 < k ∧ 0 < g ∧ s.a = (reduceIrr s).a * g * k ∧ s.b = (reduceIrr s).b * g ∧
      s.c = (reduceIrr s).c * g * k ∧ s.r = k * k * (reduceIrr s).r ∧
      ∀ d : ℤ, d ∣ (reduceIrr s).a → d ∣ (reduceIrr s).b → d ∣ (reduceIrr s).c → IsUnit d := by
  obtain ⟨k, hk, h1, h2, h3, h4, h5⟩ := reduceFactor_spec hc hr
  have hgac := igcd_pos_right s.a hc
  unfold reduceIrr
  simp only
  generalize reduceFactor s = t at *
  obtain ⟨t, g⟩ := t
  simp only at *
  have hg0 : 0 < g := by
    rw [h5] at hgac
    exact pos_of_mul_pos_left hgac hk.le
  have hga : g ∣ t.a := by
    have : g * k ∣ t.a * k := by rw [← h5, ← h1]; exact igcd_dvd_left _ _
    exact Int.dvd_of_mul_dvd_mul_right hk.ne' this
  have hgc : g ∣ t.c := by
    have : g * k ∣ t.c * k := by rw [← h5, ← h2]; exact igcd_dvd_right _ _
    exact Int.dvd_of_mul_dvd_mul_right hk.ne' this
  have hmaxg : ∀ d, d ∣ t.a → d ∣ t.c → d ∣ g := by
    intro d hd1 hd2
    have : d * k ∣ g * k := by
      rw [← h5]
      apply dvd_igcd
      · rw [h1]; exact mul_dvd_mul_right hd1 _
      · rw [h2]; exact mul_dvd_mul_right hd2 _
    exact Int.dvd_of_mul_dvd_mul_right hk.ne' this
  have hG := igcd_pos_left t.b hg0.ne'
  have d1 : igcd g t.b ∣ t.a := (igcd_dvd_left g t.b).trans hga
  have d2 : igcd g t.b ∣ t.b := igcd_dvd_right g t.b
  have d3 : igcd g t.b ∣ t.c := (igcd_dvd_left g t.b).trans hgc
  refine ⟨k, igcd g t.b, hk, hG, ?_, ?_, ?_, h3, ?_⟩
  · rw [tdiv_mul_of_dvd d1]; exact h1
  · rw [tdiv_mul_of_dvd d2]; exact h4.symm
  · rw [tdiv_mul_of_dvd d3]; exact h2
  · intro d e1 e2 e3
    refine isUnit_of_mul_dvd (a := t.a) (b := t.b) (c := t.c) hG ?_ ?_ ?_ ?_
    · intro d f1 f2 f3
      exact dvd_igcd (hmaxg d f1 f3) f2
    · conv_rhs => rw [← tdiv_mul_of_dvd d1]
      exact mul_dvd_mul_right e1 _
    · conv_rhs => rw [← tdiv_mul_of_dvd d2]
      exact mul_dvd_mul_right e2 _
    · conv_rhs => rw [← tdiv_mul_of_dvd d3]
      exact mul_dvd_mul_right e3 _

theorem reduceSign_valC {s : Surd} (hc : s.c ≠ 0) : (reduceSign s).valC = s.valC := by
  unfold reduceSign
  split
  · unfold valC
    simp only
    apply quadC_congr (by omega) hc
    push_cast; ring
  · rfl

/-- Everything about `reduce` on a non-zero denominator. -/
theorem reduce_spec {s : Surd} (hc : s.c ≠ 0) :
    ∃ t, reduce s = .ok t ∧ t.valC = s.valC ∧ t.Normal ∧
      ((t.r = 0 ∧ (s.b = 0 ∨ IsSquare s.r)) ∨ (s.b ≠ 0 ∧ ¬ IsSquare s.r ∧ ∃ k : ℤ, 0 < k ∧ s.r = k * k * t.r)) := by
  unfold reduce
  rw [if_neg hc]
  refine ⟨_, rfl, ?_⟩
  have hc1 : (reduceSquare s).c ≠ 0 := by rw [reduceSquare_c]; exact hc
  split
  · next h =>
    obtain ⟨n1, n2, n3, n4⟩ := reduceRat_normal hc1
    have hsq : s.b = 0 ∨ IsSquare s.r := by
      by_cases hs : IsSquare s.r
      · exact .inr hs
      · rw [reduceSquare_of_not_square hs] at h
        rcases h with h | h
        · exact .inl h
        · exact absurd (h ▸ ⟨0, by simp⟩) hs
    refine ⟨?_, ?_, .inl ⟨?_, hsq⟩⟩
    · rw [reduceSign_valC n1, reduceRat_valC hc1 h, reduceSquare_valC]
    · generalize reduceRat (reduceSquare s) = t at *
      unfold reduceSign
      split
      · refine ⟨by simp only; omega, ?_, by simp [n2, n3], by simp [n3]⟩
        simp only
        intro d h1 _ h3
        refine n4 d ?_ ?_
        · simpa using h1
        · simpa using h3
      · exact ⟨by omega, fun d h1 _ h3 => n4 d h1 h3, by simp [n2, n3], by simp [n3]⟩
    · unfold reduceSign; split <;> simp [n3]
  · next h =>
    push Not at h
    have hns : ¬ IsSquare s.r := by
      intro hs
      rw [reduceSquare_of_square hs] at h
      simp at h
    rw [reduceSquare_of_not_square hns] at h ⊢
    obtain ⟨k, g, hk, hg, h1, h2, h3, h4, h5⟩ := reduceIrr_spec hc h.2
    have hc2 : (reduceIrr s).c ≠ 0 := by
      intro e; rw [e] at h3; simp at h3; exact hc h3
    have hb2 : (reduceIrr s).b ≠ 0 := by
      intro e; rw [e] at h2; simp at h2; exact h.1 h2
    have hr2 : (reduceIrr s).r ≠ 0 := by
      intro e; rw [e] at h4; simp at h4; exact h.2 h4
    have hns2 : ¬ IsSquare (reduceIrr s).r := by
      rintro ⟨m, hm⟩
      apply hns
      exact ⟨k * m, by rw [h4, hm]; ring⟩
    have hrs : (reduceSign (reduceIrr s)).r = (reduceIrr s).r := by
      unfold reduceSign; split <;> rfl
    refine ⟨?_, ?_, .inr ⟨h.1, hns, k, hk, by rw [hrs]; exact h4⟩⟩
    · rw [reduceSign_valC hc2]
      unfold valC
      generalize reduceIrr s = t at *
      rw [h1, h2, h3, h4, quadC_root_scale hk, quadC_scale hg.ne']
    · generalize reduceIrr s = t at *
      unfold reduceSign
      split
      · refine ⟨by simp only; omega, ?_, by simp [hb2, hr2], by simpa using fun _ => hns2⟩
        simp only
        intro d h1 h2 h3
        refine h5 d ?_ ?_ ?_
        · simpa using h1
        · simpa using h2
        · simpa using h3
      · exact ⟨by omega, h5, by simp [hb2, hr2], fun _ => hns2⟩

theorem reduce_zero {s : Surd} (hc : s.c = 0) : reduce s = .error .denomZero := by
  unfold reduce; rw [if_pos hc]

theorem reduce_sign_nonneg {s t : Surd} (h : reduce s = .ok t) (hs : 0 ≤ s.r) : 0 ≤ t.r := by
  by_cases hc : s.c = 0
  · rw [reduce_zero hc] at h; cases h
  · obtain ⟨t', h1, _, _, h4⟩ := reduce_spec hc
    rw [h] at h1; cases h1
    rcases h4 with h4 | ⟨_, _, k, hk, e⟩
    · omega
    · by_contra hn
      have : 0 < k * k := by positivity
      nlinarith

end Surd
end NumIrr
