/-
The sequences of the continued fraction of Euler's constant: recurrence, positivity, integrality.
-/
import Verif.Spec.Gamma
import Verif.Model.Symbols
import Verif.Spec.GCF
import Mathlib.Algebra.BigOperators.Ring.Finset
import Mathlib.Tactic.Ring
import Mathlib.Tactic.Linarith
import Mathlib.Tactic.FieldSimp
import Mathlib.Tactic.LinearCombination
import Mathlib.Tactic.Positivity

namespace NumIrr

open Finset

/-- `Σ_k C(m,k)·C(n,k)·k!`, with any upper bound of the summation -/
def rook (m n N : ℕ) : ℕ := ∑ k ∈ range N, m.choose k * n.choose k * k.factorial

theorem rook_bound (m n : ℕ) {N : ℕ} (h : m + 1 ≤ N) : rook m n N = rook m n (m + 1) := by
  unfold rook
  refine (sum_subset (range_mono h) fun k _ hk => ?_).symm
  rw [Nat.choose_eq_zero_of_lt (by simpa using hk)]
  simp

theorem rook_symm (m n N : ℕ) : rook m n N = rook n m N := by
  unfold rook
  exact sum_congr rfl fun k _ => by ring

theorem rook_succ (m n N : ℕ) : rook (m + 1) (n + 1) (N + 1) = rook m (n + 1) (N + 1) + (n + 1) * rook m n N := by
  unfold rook
  rw [sum_range_succ' _ N, sum_range_succ' (fun k => m.choose k * (n + 1).choose k * k.factorial) N, mul_sum]
  simp only [Nat.choose_zero_right, Nat.factorial_zero]
  have : ∀ k ∈ range N, (m + 1).choose (k + 1) * (n + 1).choose (k + 1) * (k + 1).factorial
      = m.choose (k + 1) * (n + 1).choose (k + 1) * (k + 1).factorial
        + (n + 1) * (m.choose k * n.choose k * k.factorial) := by
    intro k _
    have h := Nat.add_one_mul_choose_eq n k
    rw [Nat.choose_succ_succ' m k, Nat.factorial_succ]
    linear_combination (m.choose k * k.factorial) * h.symm
  rw [sum_congr rfl this, sum_add_distrib]
  ring

theorem gamQ_rook (n N : ℕ) (h : n + 1 ≤ N) : gamQ n = rook n n N := by
  rw [rook_bound n n h]
  unfold gamQ rook
  exact sum_congr rfl fun k _ => by ring

/-- Eq (22) -/
theorem gamQ_rec (n : ℕ) : (gamQ (n + 2) : ℤ) = 2 * (n + 2) * gamQ (n + 1) - (n + 1) ^ 2 * gamQ n := by
  -- t (n+2) = u (n+2) + (n+2) t (n+1), u (n+2) = t (n+1) + (n+1) u (n+1), t (n+1) = u (n+1) + (n+1) t n
  have h1 := rook_succ (n + 1) (n + 1) (n + 3)
  have h2 := rook_succ (n + 1) n (n + 3)
  have h3 := rook_succ n n (n + 2)
  rw [← gamQ_rook (n + 2) _ (by omega), ← gamQ_rook (n + 1) _ (by omega)] at h1
  rw [rook_symm (n + 1 + 1) (n + 1), ← gamQ_rook (n + 1) _ (by omega)] at h2
  rw [← gamQ_rook (n + 1) _ (by omega), ← gamQ_rook n _ (by omega)] at h3
  rw [rook_symm (n + 1) n, rook_bound n (n + 1) (by omega : n + 1 ≤ n + 3)] at h2
  rw [rook_bound n (n + 1) (by omega : n + 1 ≤ n + 2 + 1)] at h3
  rw [show n + 1 + 1 = n + 2 from rfl] at h1 h2
  have h1' : (gamQ (n + 2) : ℤ) = rook (n + 1) (n + 2) (n + 3 + 1) + (n + 2) * gamQ (n + 1) := by exact_mod_cast h1
  have h2' : (rook (n + 1) (n + 2) (n + 3 + 1) : ℤ) = gamQ (n + 1) + (n + 1) * rook n (n + 1) (n + 1) := by exact_mod_cast h2
  have h3' : (gamQ (n + 1) : ℤ) = rook n (n + 1) (n + 1) + (n + 1) * gamQ n := by exact_mod_cast h3
  linear_combination h1' + h2' - (n + 1) * h3'

theorem gamQ_pos (n : ℕ) : 0 < gamQ n := by
  unfold gamQ
  refine sum_pos (fun k hk => ?_) ⟨0, by simp⟩
  have := Nat.choose_pos (Nat.lt_succ_iff.mp (mem_range.mp hk))
  have := k.factorial_pos
  positivity

theorem gamS_pos (n : ℕ) : 0 < gamS (n + 4) := by
  have h4 : gamS 4 = 2 := by decide +kernel
  induction n with
  | zero => rw [h4]; norm_num
  | succ n ih =>
    have e : gamS (n + 1 + 4) = ((n + 3 : ℕ) + 1) ^ 2 * gamS (n + 3 + 1) + (n + 3 : ℕ) / ((n + 3 : ℕ) + 2) * gamQ (n + 3 + 1) :=
      rfl
    rw [e, show n + 3 + 1 = n + 4 from rfl]
    positivity

theorem gamS_ne (n : ℕ) : gamS n ≠ 0 := by
  rcases n with _ | _ | _ | _ | n
  · decide +kernel
  · decide +kernel
  · decide +kernel
  · decide +kernel
  · exact (gamS_pos n).ne'

/-- `n·s_n` is an integer -/
def gamN : ℕ → ℤ
  | 0 => 0
  | 1 => -1
  | n + 2 => (n + 2) * (n + 1) * gamN (n + 1) + n * gamQ (n + 1)

theorem gamN_eq (n : ℕ) : (gamN n : ℚ) = n * gamS n := by
  suffices H : (gamN n : ℚ) = n * gamS n ∧ (gamN (n + 1) : ℚ) = ((n + 1 : ℕ) : ℚ) * gamS (n + 1) from H.1
  induction n with
  | zero => exact ⟨by simp [gamN], by simp [gamN, gamS]⟩
  | succ n ih =>
    refine ⟨ih.2, ?_⟩
    have h2 := ih.2
    have e : gamS (n + 1 + 1) = (n + 1) ^ 2 * gamS (n + 1) + n / (n + 2) * gamQ (n + 1) := rfl
    rw [e]
    simp only [gamN]
    push_cast at h2 ⊢
    rw [h2]
    have : ((n : ℚ) + 2) ≠ 0 := by positivity
    field_simp
    ring

theorem gamN_even (n : ℕ) : 2 ∣ gamN (2 * n + 2) := by
  rw [gamN]
  push_cast
  refine dvd_add ⟨(n + 1) * (2 * n + 1) * gamN (2 * n + 1), by ring⟩ ⟨n * gamQ (2 * n + 1), by ring⟩

theorem astar_int (n : ℕ) : ∃ z : ℤ, (z : ℚ) = gamRho (n + 2) * gamRho (n + 1) * gamA (n + 2) := by
  rcases n with _ | _ | _ | _ | n
  · exact ⟨-1, by decide +kernel⟩
  · exact ⟨-5, by decide +kernel⟩
  · exact ⟨36, by decide +kernel⟩
  · exact ⟨-15740, by decide +kernel⟩
  · -- -(n+5)²/4 · N (n+6) · N (n+4)
    have hd : (4 : ℤ) ∣ ((n : ℤ) + 5) ^ 2 * gamN (n + 6) * gamN (n + 4) := by
      rcases Nat.even_or_odd' n with ⟨m, rfl | rfl⟩
      · obtain ⟨u, hu⟩ := gamN_even (m + 2)
        obtain ⟨v, hv⟩ := gamN_even (m + 1)
        rw [show 2 * m + 6 = 2 * (m + 2) + 2 by ring, show 2 * m + 4 = 2 * (m + 1) + 2 by ring, hu, hv]
        exact ⟨(((2 * m : ℕ) : ℤ) + 5) ^ 2 * u * v, by ring⟩
      · push_cast
        exact ⟨((m : ℤ) + 3) ^ 2 * gamN (2 * m + 1 + 6) * gamN (2 * m + 1 + 4), by ring⟩
    obtain ⟨z, hz⟩ := hd
    refine ⟨-z, ?_⟩
    have h1 := gamN_eq (n + 6)
    have h2 := gamN_eq (n + 4)
    have hz' : ((n : ℚ) + 5) ^ 2 * gamN (n + 6) * gamN (n + 4) = 4 * z := by exact_mod_cast hz
    rw [h1, h2] at hz'
    have hs := gamS_ne (n + 5)
    have e1 : gamRho (n + 6) = ((n : ℚ) + 6) * ((n : ℚ) + 5) / 2 * gamS (n + 5) := by
      unfold gamRho
      rw [if_neg (by omega), if_neg (by omega), if_neg (by omega), show n + 6 - 1 = n + 5 by omega]
      push_cast; ring
    have e2 : gamRho (n + 5) = ((n : ℚ) + 5) * ((n : ℚ) + 4) / 2 * gamS (n + 4) := by
      unfold gamRho
      rw [if_neg (by omega), if_neg (by omega), if_neg (by omega), show n + 5 - 1 = n + 4 by omega]
      push_cast; ring
    have e3 : gamA (n + 6) = -gamS (n + 6) / gamS (n + 5) := by
      unfold gamA; rw [show n + 6 - 1 = n + 5 by omega]
    show ((-z : ℤ) : ℚ) = gamRho (n + 6) * gamRho (n + 5) * gamA (n + 6)
    rw [e1, e2, e3]
    push_cast at hz' ⊢
    field_simp
    linear_combination (1 : ℚ) * hz'

theorem bstar_int (n : ℕ) : ∃ z : ℤ, (z : ℚ) = gamRho (n + 2) * gamB (n + 2) := by
  rcases n with _ | _ | _ | n
  · exact ⟨4, by decide +kernel⟩
  · exact ⟨16, by decide +kernel⟩
  · exact ⟨59, by decide +kernel⟩
  · -- (n+5)²·N (n+4) + (n+4)(n+3)/2·q (n+3)
    have hd : (2 : ℤ) ∣ ((n : ℤ) + 4) * (n + 3) := by
      rcases Nat.even_or_odd' n with ⟨m, rfl | rfl⟩
      · exact ⟨(m + 2) * (2 * m + 3), by push_cast; ring⟩
      · exact ⟨(2 * m + 5) * (m + 2), by push_cast; ring⟩
    obtain ⟨c, hc⟩ := hd
    refine ⟨(n + 5) ^ 2 * gamN (n + 4) + c * gamQ (n + 3), ?_⟩
    have h2 := gamN_eq (n + 4)
    have hs := gamS_ne (n + 4)
    have hc' : ((n : ℚ) + 4) * (n + 3) = 2 * c := by exact_mod_cast hc
    have e1 : gamRho (n + 5) = ((n : ℚ) + 5) * ((n : ℚ) + 4) / 2 * gamS (n + 4) := by
      unfold gamRho
      rw [if_neg (by omega), if_neg (by omega), if_neg (by omega), show n + 5 - 1 = n + 4 by omega]
      push_cast; ring
    have e2 : gamB (n + 5) = 2 * ((n : ℚ) + 5) + ((n : ℚ) + 3) / (n + 5) * gamQ (n + 3) / gamS (n + 4) := by
      unfold gamB
      rw [show n + 5 - 1 = n + 4 by omega, show n + 5 - 2 = n + 3 by omega]
      push_cast; ring
    show ((((n : ℤ) + 5) ^ 2 * gamN (n + 4) + c * gamQ (n + 3) : ℤ) : ℚ) = gamRho (n + 5) * gamB (n + 5)
    rw [e1, e2]
    have hn : ((n : ℚ) + 5) ≠ 0 := by positivity
    push_cast at h2 ⊢
    rw [h2]
    field_simp
    linear_combination (-gamQ (n + 3) : ℚ) * hc'

end NumIrr
