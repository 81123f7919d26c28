/-
The number of rounds of the first loop of the expansion of a quadratic irrational.
-/
import Verif.Lemmas.LagrangeLoop

namespace NumIrr
namespace Lagrange

variable {d rd p q : ℤ}

/-- the number and its conjugate have the same integer part, which is computed correctly -/
def Shared (d rd p q : ℤ) : Prop :=
  ¬ Off rd p q ∧ (coef rd p q : ℝ) < thc d p q ∧ thc d p q < coef rd p q + 1

theorem Tail.length_le {l : List ℤ} (h : Tail l) : l.length ≤ 4 := by
  cases h <;> simp

/-- unless the integer parts are shared, the loop ends soon or never -/
theorem run_unshared (hr : Root d rd) (h : Valid d p q) (hs : ¬ Shared d rd p q) :
    (∃ l p' q', Run d rd p q l p' q' ∧ l.length ≤ 5) ∨ ∃ p' q', Reach d rd p q p' q' ∧ Stuck d rd p' q' := by
  by_cases hoff : Off rd p q
  · rcases run_off hr h hoff with ⟨l, p', q', h2, h3⟩ | h2
    · exact .inl ⟨_, p', q', h2, by have := h3.length_le; simp; omega⟩
    · exact .inr ⟨p, q, .refl p q, h2⟩
  · left
    have hv := next_valid hr h
    have hg := next_gt_one hr h hoff
    have hcc := next_thc hr h
    rcases lt_or_gt_of_ne (thc_ne_int hr h (coef rd p q)) with h2 | h2
    · have h3 := inv_neg' hcc (by linarith)
      obtain ⟨h4, h5, h6⟩ := run_neg hr hv hg h3
      by_cases hred : isReduced rd (nextP rd p q) (nextQ d rd p q) = true
      · exact ⟨_, _, _, .stop p q hred, by simp⟩
      · rw [Bool.not_eq_true] at hred
        exact ⟨_, _, _, .step p q hred h6, by simp⟩
    · have hpos := inv_pos' hcc (by linarith)
      have hred : isReduced rd (nextP rd p q) (nextQ d rd p q) = false :=
        not_reduced hr hv (by rintro ⟨-, h, -⟩; linarith)
      have hne := thc_ne_int hr h (coef rd p q + 1)
      push_cast at hne
      have h3 : (coef rd p q : ℝ) + 1 < thc d p q := by
        rcases lt_or_gt_of_ne hne with h3 | h3
        · exact absurd ⟨hoff, h2, h3⟩ hs
        · exact h3
      obtain ⟨h4, h5⟩ := inv_small hcc (by linarith)
      obtain ⟨l, p', q', h6, h7⟩ := run_small hr hv hg h4 h5
      refine ⟨_, p', q', .step p q hred h6, ?_⟩
      rcases h7 with ⟨C, hC, rfl⟩ | ⟨D, hD, rfl⟩ <;> simp

/-- two shared integer parts: `(x - a)(y - b) < 1/2` for `y = 1/(x - a)` and `b = ⌊y⌋ ≥ 1` -/
theorem two_frac {u y : ℝ} {b : ℤ} (h : u * y = 1) (hu : 0 < u) (hb : 1 ≤ b) (h1 : (b : ℝ) < y) (h2 : y < b + 1) :
    0 < u * (y - b) ∧ u * (y - b) < 1 / 2 := by
  have hb' : (1 : ℝ) ≤ b := by exact_mod_cast hb
  refine ⟨mul_pos hu (by linarith), ?_⟩
  have : 1 < u * (b + 1) := by
    have := mul_lt_mul_of_pos_left h2 hu
    linarith
  nlinarith

/-- after two shared integer parts the denominator is less than a quarter -/
theorem shared_two (hr : Root d rd) (h : Valid d p q) (h1 : Shared d rd p q)
    (h2 : Shared d rd (nextP rd p q) (nextQ d rd p q)) :
    4 * (nextQ d rd (nextP rd p q) (nextQ d rd p q)).natAbs < q.natAbs := by
  have hv := next_valid hr h
  have e1 := next_q_eq hr h
  have e2 := next_q_eq hr hv
  obtain ⟨f1, f2⟩ := coef_exact hr h h1.1
  obtain ⟨g1, g2⟩ := coef_exact hr hv h2.1
  have hg := next_gt_one hr h h1.1
  have hb : 1 ≤ coef rd (nextP rd p q) (nextQ d rd p q) := coef_ge hr hv h2.1 (by push_cast; linarith)
  obtain ⟨a1, a2⟩ := two_frac (next_th hr h) (by linarith) hb g1 g2
  obtain ⟨b1, b2⟩ := two_frac (next_thc hr h) (by linarith [h1.2.1]) hb h2.2.1 h2.2.2
  have hq : 0 < |(q : ℝ)| := abs_pos.2 h.neR
  have key : 4 * |(nextQ d rd (nextP rd p q) (nextQ d rd p q) : ℝ)| < |(q : ℝ)| := by
    rw [e2, e1]
    generalize th d p q - coef rd p q = u at *
    generalize thc d p q - coef rd p q = v at *
    generalize th d (nextP rd p q) (nextQ d rd p q) - coef rd (nextP rd p q) (nextQ d rd p q) = u1 at *
    generalize thc d (nextP rd p q) (nextQ d rd p q) - coef rd (nextP rd p q) (nextQ d rd p q) = v1 at *
    have e : -(-(q : ℝ) * (u * v)) * (u1 * v1) = q * ((u * u1) * (v * v1)) := by ring
    rw [e, abs_mul, abs_of_pos (mul_pos a1 b1)]
    have : (u * u1) * (v * v1) < 1 / 2 * (1 / 2) := mul_lt_mul'' a2 b2 a1.le b1.le
    nlinarith
  have : 4 * |nextQ d rd (nextP rd p q) (nextQ d rd p q)| < |q| := by exact_mod_cast key
  rw [Int.abs_eq_natAbs, Int.abs_eq_natAbs] at this
  exact_mod_cast this

theorem shared_one (hr : Root d rd) (h : Valid d p q) (h1 : Shared d rd p q) :
    isReduced rd (nextP rd p q) (nextQ d rd p q) = false :=
  not_reduced hr (next_valid hr h) (by
    have hpos := inv_pos' (next_thc hr h) (by linarith [h1.2.1])
    rintro ⟨-, h, -⟩; linarith)

/-- the first loop ends within `2n + 5` rounds or never, if `|q| < 4ⁿ` -/
theorem run_bound (hr : Root d rd) : ∀ (n : ℕ) (p q : ℤ), q.natAbs < 4 ^ n → Valid d p q →
    (∃ l p' q', Run d rd p q l p' q' ∧ l.length ≤ 2 * n + 5) ∨ ∃ p' q', Reach d rd p q p' q' ∧ Stuck d rd p' q'
  | 0, p, q, hn, h => absurd h.ne (by simp at hn; omega)
  | n + 1, p, q, hn, h => by
    by_cases hs : Shared d rd p q
    · have hv := next_valid hr h
      have hred := shared_one hr h hs
      by_cases hs1 : Shared d rd (nextP rd p q) (nextQ d rd p q)
      · have h2 := shared_two hr h hs hs1
        have hred1 := shared_one hr hv hs1
        rcases run_bound hr n _ _ (by rw [pow_succ] at hn; omega) (next_valid hr hv) with ⟨l, p', q', h3, h4⟩ | ⟨p', q', h3, h4⟩
        · exact .inl ⟨_, p', q', .step _ _ hred (.step _ _ hred1 h3), by simp; omega⟩
        · exact .inr ⟨p', q', .step (.step h3), h4⟩
      · rcases run_unshared hr hv hs1 with ⟨l, p', q', h3, h4⟩ | ⟨p', q', h3, h4⟩
        · exact .inl ⟨_, p', q', .step _ _ hred h3, by simp; omega⟩
        · exact .inr ⟨p', q', .step h3, h4⟩
    · rcases run_unshared hr h hs with ⟨l, p', q', h3, h4⟩ | h3
      · exact .inl ⟨l, p', q', h3, by omega⟩
      · exact .inr h3

end Lagrange
end NumIrr
