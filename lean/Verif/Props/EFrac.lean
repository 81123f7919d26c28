/-
C46: the coefficients of `e`.
-/
import Verif.Lemmas.EInt
import Verif.Props.Homo
import Verif.Model.Symbols

namespace NumIrr

namespace ECoeffs

theorem stream_block (n : ℕ) : ∀ k, stream next ⟨2 * (n + 1), 0⟩ k = some (eC (3 * n + 1 + k)) ∧
    stream next ⟨2 * (n + 1), 1⟩ k = some (eC (3 * n + 2 + k)) ∧ stream next ⟨2 * (n + 1), 2⟩ k = some (eC (3 * n + 3 + k)) := by
  intro k
  have h0 : (2 * ((n : ℤ) + 1)) ≠ 0 := by omega
  induction k generalizing n with
  | zero =>
    refine ⟨?_, ?_, ?_⟩
    · simp only [stream, next, if_neg h0, Nat.add_zero, eC]
      rw [if_neg (by omega : ¬ 3 * n + 1 = 0), if_neg (by omega : ¬ (3 * n + 1) % 3 = 2)]
      rfl
    · simp only [stream, next, if_neg h0, Nat.add_zero, eC]
      rw [if_neg (by omega : ¬ 3 * n + 2 = 0), if_pos (by omega : (3 * n + 2) % 3 = 2), show (3 * n + 2 + 1) / 3 = n + 1 by omega]
      simp
    · simp only [stream, next, if_neg h0, Nat.add_zero, eC]
      rw [if_neg (by omega : ¬ 3 * n + 3 = 0), if_neg (by omega : ¬ (3 * n + 3) % 3 = 2)]
      rfl
  | succ k ih =>
    obtain ⟨h1, h2, h3⟩ := ih n h0
    obtain ⟨h4, -, -⟩ := ih (n + 1) (by omega)
    have s0 : (next ⟨2 * ((n : ℤ) + 1), 0⟩).2 = ⟨2 * (n + 1), 1⟩ := by simp [next, h0]
    have s1 : (next ⟨2 * ((n : ℤ) + 1), 1⟩).2 = ⟨2 * (n + 1), 2⟩ := by simp [next, h0]
    have s2 : (next ⟨2 * ((n : ℤ) + 1), 2⟩).2 = ⟨2 * (((n + 1 : ℕ) : ℤ) + 1), 0⟩ := by
      simp only [next, if_neg h0, if_true]
      push_cast
      congr 1
      ring
    simp only [stream, s0, s1, s2]
    refine ⟨?_, ?_, ?_⟩
    · rw [h2]; congr 2; omega
    · rw [h3]; congr 2; omega
    · rw [h4]; congr 2; omega

/-- C46, the coefficients: `2`, then `1, 2k, 1` for `k = 1, 2, …`. -/
theorem e_coeffs (k : ℕ) : stream next new k =
    some (if k = 0 then (2 : ℤ) else if k % 3 = 2 then 2 * (((k + 1) / 3 : ℕ) : ℤ) else 1) := by
  cases k with
  | zero => rfl
  | succ k =>
    have h := (stream_block 0 k).1
    have s : (next new).2 = ⟨2 * (((0 : ℕ) : ℤ) + 1), 0⟩ := rfl
    rw [stream, s, h, show 3 * 0 + 1 + k = k + 1 by omega]
    rfl

/-- C46, the value: the nested fractions `2 + 1/(1 + 1/(2 + …))` tend to `e`. -/
theorem e_value (c : ℕ → ℤ) (hc : ∀ k, stream next new k = some (c k)) : GVal (fun k => (1, c k)) (Real.exp 1) := by
  have : (fun k => ((1 : ℤ), c k)) = eG := by
    funext k
    have := hc k
    rw [e_coeffs] at this
    simp only [eG, eC]
    rw [Option.some.inj this]
  rw [this]
  exact eG_val

/-- C46: they are the coefficients of the regular expansion of `e`. -/
theorem e_regular (k : ℕ) : stream next new k = some ⌊tails (Real.exp 1) k⌋ := by
  have hq : ∀ k, 1 < eErr (k + 1) / eErr (k + 2) := by
    intro k
    rw [one_lt_div (eErr_pos _), eErr_rec (k + 1)]
    have h1 : (1 : ℝ) ≤ eC (k + 1) := by exact_mod_cast eC_pos (k + 1)
    have h2 := eErr_pos (k + 1 + 1)
    have h3 := eErr_pos (k + 1 + 2)
    nlinarith
  have hfl : ∀ k, ⌊eErr k / eErr (k + 1)⌋ = eC k ∧ eErr k / eErr (k + 1) = eC k + 1 / (eErr (k + 1) / eErr (k + 2)) := by
    intro k
    have h := (eG_chain k).2
    simp only [eG, Int.cast_one, one_mul] at h
    refine ⟨?_, h⟩
    rw [Int.floor_eq_iff, h]
    have h1 := hq k
    have h0 : 0 < 1 / (eErr (k + 1) / eErr (k + 2)) := by positivity
    have h2 : 1 / (eErr (k + 1) / eErr (k + 2)) < 1 := by rw [div_lt_one (by linarith)]; exact h1
    constructor <;> linarith
  have ht : ∀ k, tails (Real.exp 1) k = eErr k / eErr (k + 1) := by
    intro k
    induction k with
    | zero =>
      have h1 := eErr_J 0
      simp only [Nat.mul_zero, Nat.zero_add, Nat.factorial_zero, Nat.cast_one, div_one, eInt_one] at h1
      rw [Nat.zero_add, h1, div_one]; rfl
    | succ k ih =>
      rw [tails_succ, ih, (hfl k).1, (hfl k).2, add_sub_cancel_left, one_div_one_div]
  rw [ht, (hfl k).1]
  exact e_coeffs k

theorem e_irrational : Irrational (Real.exp 1) := by
  have h : Real.exp 1 = cfLim eC := by
    have h0 := cfLim_of_chain (c := eC) (fun n => eC_pos (n + 1)) (fun k => eErr k / eErr (k + 1))
      (fun n => by have := (eG_chain n).2; simp only [eG, Int.cast_one, one_mul] at this; exact this)
      (fun n => (eG_chain (n + 1)).1)
    rw [← h0]
    have h1 := eErr_J 0
    simp only [Nat.mul_zero, Nat.zero_add, Nat.factorial_zero, Nat.cast_one, div_one, eInt_one] at h1
    simp only [Nat.zero_add, h1, div_one]; rfl
  rw [h]
  exact cfLim_irrational fun n => eC_pos (n + 1)

/-- With C40: the homographic function of the coefficients of `e` computes the regular expansion of
`(a·e + b)/(c·e + d)`. -/
theorem e_homo (a b c d : ℤ) (ha : 0 ≤ a) (hb : 0 ≤ b) (hc : 0 ≤ c) (hd : 0 ≤ d) (hdet : a * d ≠ b * c) (n : ℕ) :
    ∃ s, Outs Homo.Call (Homo.new (stream next new) a b c d)
      ((List.range n).map fun k => ⌊tails ((a * Real.exp 1 + b) / (c * Real.exp 1 + d)) k⌋) s := by
  rw [funext e_regular]
  exact Homo.homo_productive _ e_irrational (Real.exp_pos 1) a b c d ha hb hc hd hdet n

example : (List.range 10).map (stream next new) = [some 2, some 1, some 2, some 1, some 1, some 4, some 1, some 1, some 6, some 1] := by
  decide +kernel

end ECoeffs
end NumIrr
