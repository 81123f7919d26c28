/- Helper lemmas for `reduced()`. -/
import Verif.Lemmas.SurdBin
import Verif.Model.SurdSqrt
import Mathlib.Data.Nat.Prime.Basic
import Mathlib.Tactic.IntervalCases

namespace NumIrr
namespace Surd

theorem stripLoop_mono {p : ℤ} : ∀ {n m : ℕ} {br x : ℤ × ℤ}, n ≤ m →
    stripLoop n p br = some x → stripLoop m p br = some x := by
  intro n
  induction n with
  | zero => intro m br x _ h; simp [stripLoop] at h
  | succ n ih =>
    intro m br x hm h
    obtain ⟨m, rfl⟩ : ∃ k, m = k + 1 := ⟨m - 1, by omega⟩
    obtain ⟨b, r⟩ := br
    simp only [stripLoop] at h ⊢
    split at h
    · next h0 => rw [if_pos h0]; exact ih (by omega) h
    · next h0 => rw [if_neg h0]; exact h

/-- result of stripping squares of positive integers -/
def Stripped (br br' : ℤ × ℤ) : Prop :=
  ∃ k : ℤ, 0 < k ∧ br'.1 = br.1 * k ∧ br.2 = k * k * br'.2

theorem Stripped.refl (br : ℤ × ℤ) : Stripped br br := ⟨1, one_pos, by simp, by simp⟩

theorem Stripped.trans {x y z : ℤ × ℤ} (h1 : Stripped x y) (h2 : Stripped y z) : Stripped x z := by
  obtain ⟨k, hk, e1, e2⟩ := h1
  obtain ⟨l, hl, e3, e4⟩ := h2
  exact ⟨k * l, mul_pos hk hl, by rw [e3, e1]; ring, by rw [e2, e4]; ring⟩

theorem stripLoop_spec {p : ℤ} (hp : 1 < p) : ∀ (n : ℕ) (b r : ℤ), r ≠ 0 → r.natAbs ≤ n →
    ∃ br', stripLoop (n + 1) p (b, r) = some br' ∧ Stripped (b, r) br' ∧ ¬ p * p ∣ br'.2 := by
  intro n
  induction n with
  | zero => intro b r h0 h1; exfalso; apply h0; simpa using h1
  | succ n ih =>
    intro b r h0 h1
    rw [stripLoop]
    by_cases h : r.tmod (p * p) = 0
    · rw [if_pos h]
      have hd : p * p ∣ r := Int.dvd_of_tmod_eq_zero h
      have he : r.tdiv (p * p) * (p * p) = r := tdiv_mul_of_dvd hd
      have hq0 : r.tdiv (p * p) ≠ 0 := by intro e; rw [e, zero_mul] at he; exact h0 he.symm
      have hlt : (r.tdiv (p * p)).natAbs ≤ n := by
        have h3 : (r.tdiv (p * p)).natAbs * (p * p).natAbs = r.natAbs := by
          rw [← Int.natAbs_mul, he]
        have h4 : 2 ≤ (p * p).natAbs := by
          have : 2 ≤ p * p := by nlinarith
          omega
        have h5 : 0 < (r.tdiv (p * p)).natAbs := Int.natAbs_pos.mpr hq0
        nlinarith
      obtain ⟨br', e1, e2, e3⟩ := ih (b * p) (r.tdiv (p * p)) hq0 hlt
      refine ⟨br', e1, Stripped.trans ?_ e2, e3⟩
      exact ⟨p, by omega, rfl, by simp only; rw [mul_comm]; exact he.symm⟩
    · rw [if_neg h]
      exact ⟨_, rfl, Stripped.refl _, fun hd => h (Int.tmod_eq_zero_of_dvd hd)⟩

theorem stripLoop_hang {p : ℤ} : ∀ (n : ℕ) (b : ℤ), stripLoop n p (b, 0) = none := by
  intro n
  induction n with
  | zero => intro b; rfl
  | succ n ih => intro b; simp [stripLoop, ih]

theorem stripAll_spec {fits : ℤ → Bool} : ∀ (ps : List ℤ), (∀ p ∈ ps, 1 < p) →
    (∀ p ∈ ps, fits p = true) → ∀ (N : ℕ) (b r : ℤ), r ≠ 0 → r.natAbs ≤ N →
    ∃ br', (∀ fuel, N < fuel → stripAll fuel fits ps (b, r) = some (.ok br')) ∧
      Stripped (b, r) br' ∧ ∀ p ∈ ps, fits (p * p) = true → ¬ p * p ∣ br'.2 := by
  intro ps
  induction ps with
  | nil => intro _ _ N b r _ _; exact ⟨(b, r), fun _ _ => rfl, Stripped.refl _, by simp⟩
  | cons p ps ih =>
    intro h1 hf N b r hr hN
    have hp := h1 p (by simp)
    have h1' : ∀ q ∈ ps, 1 < q := fun q hq => h1 q (by simp [hq])
    have hf' : ∀ q ∈ ps, fits q = true := fun q hq => hf q (by simp [hq])
    by_cases hpp : fits (p * p) = true
    · obtain ⟨⟨b1, r1⟩, e1, e2, e3⟩ := stripLoop_spec hp N b r hr hN
      obtain ⟨k, hk, hb1, hr1⟩ := id e2
      simp only at hb1 hr1
      have hr10 : r1 ≠ 0 := by rintro rfl; simp at hr1; exact hr hr1
      have hN1 : r1.natAbs ≤ N := by
        refine le_trans ?_ hN
        rw [hr1, Int.natAbs_mul]
        exact Nat.le_mul_of_pos_left _ (Int.natAbs_pos.mpr (mul_pos hk hk).ne')
      obtain ⟨br', e4, e5, e6⟩ := ih h1' hf' N b1 r1 hr10 hN1
      refine ⟨br', ?_, e2.trans e5, ?_⟩
      · intro fuel hfu
        rw [stripAll, if_pos (hf p (by simp)), if_pos hpp, stripLoop_mono (by omega) e1]
        exact e4 fuel hfu
      · intro q hq hqq
        rcases List.mem_cons.mp hq with rfl | hq
        · intro hd
          obtain ⟨l, _, _, e7⟩ := e5
          exact e3 (hd.trans ⟨l * l, by rw [e7]; ring⟩)
        · exact e6 q hq hqq
    · obtain ⟨br', e4, e5, e6⟩ := ih h1' hf' N b r hr hN
      refine ⟨br', ?_, e5, ?_⟩
      · intro fuel hfu
        rw [stripAll, if_pos (hf p (by simp)), if_neg hpp]
        exact e4 fuel hfu
      · intro q hq hqq
        rcases List.mem_cons.mp hq with rfl | hq
        · exact absurd hqq hpp
        · exact e6 q hq hqq

theorem smallPrimes_gt : ∀ p ∈ smallPrimes, 1 < p := by decide
theorem smallPrimes_le : ∀ p ∈ smallPrimes, p ≤ 251 := by decide

theorem mem_smallPrimes {p : ℕ} (hp : p.Prime) (h : p ≤ 251) : (p : ℤ) ∈ smallPrimes := by
  have : ∀ p : ℕ, p ≤ 251 → p.Prime → (p : ℤ) ∈ smallPrimes := by decide +kernel
  exact this p h hp

end Surd
end NumIrr
