/-
The integrals `∫₀¹ xᵃ(1-x)ᵇeˣ dx` and the complete quotients of `e`.
-/
import Verif.Lemmas.ChainConv
import Mathlib.Analysis.SpecialFunctions.Integrals.Basic
import Mathlib.MeasureTheory.Integral.IntervalIntegral.FundThmCalculus

namespace NumIrr

open intervalIntegral

/-- `∫₀¹ xᵃ(1-x)ᵇeˣ dx` -/
noncomputable def eInt (a b : ℕ) : ℝ := ∫ x in (0 : ℝ)..1, x ^ a * (1 - x) ^ b * Real.exp x

theorem eInt_cont (a b : ℕ) : Continuous fun x : ℝ => x ^ a * (1 - x) ^ b * Real.exp x := by fun_prop

theorem eInt_pos (a b : ℕ) : 0 < eInt a b := by
  refine intervalIntegral_pos_of_pos_on ((eInt_cont a b).intervalIntegrable 0 1) (fun x hx => ?_) zero_lt_one
  have h1 : 0 < x := hx.1
  have h2 : 0 < 1 - x := by linarith [hx.2]
  positivity

theorem eInt_split (a b : ℕ) : eInt a b = eInt (a + 1) b + eInt a (b + 1) := by
  unfold eInt
  rw [← integral_add ((eInt_cont _ _).intervalIntegrable 0 1) ((eInt_cont _ _).intervalIntegrable 0 1)]
  congr 1
  funext x
  ring

theorem eInt_parts (a b : ℕ) :
    (a + 1) * eInt a (b + 1) - (b + 1) * eInt (a + 1) b + eInt (a + 1) (b + 1) = 0 := by
  have h : ∀ x : ℝ, HasDerivAt (fun x : ℝ => x ^ (a + 1) * (1 - x) ^ (b + 1) * Real.exp x)
      ((a + 1) * (x ^ a * (1 - x) ^ (b + 1) * Real.exp x) - (b + 1) * (x ^ (a + 1) * (1 - x) ^ b * Real.exp x)
        + x ^ (a + 1) * (1 - x) ^ (b + 1) * Real.exp x) x := by
    intro x
    have h1 := hasDerivAt_pow (a + 1) x
    have h2 := ((hasDerivAt_id x).const_sub 1).pow (b + 1)
    have h3 := (h1.mul h2).mul (Real.hasDerivAt_exp x)
    refine h3.congr_deriv ?_
    simp
    ring
  have hi : ∀ a b, IntervalIntegrable (fun x : ℝ => x ^ a * (1 - x) ^ b * Real.exp x) MeasureTheory.volume 0 1 :=
    fun a b => (eInt_cont a b).intervalIntegrable 0 1
  have := integral_eq_sub_of_hasDerivAt (a := 0) (b := 1) (fun x _ => h x)
    ((((hi _ _).const_mul _).sub ((hi _ _).const_mul _)).add (hi _ _))
  rw [integral_add (((hi _ _).const_mul _).sub ((hi _ _).const_mul _)) (hi _ _),
    integral_sub ((hi _ _).const_mul _) ((hi _ _).const_mul _), integral_const_mul, integral_const_mul] at this
  unfold eInt
  rw [this]
  simp

theorem eInt_zero : eInt 0 0 = Real.exp 1 - 1 := by
  simp [eInt]

theorem eInt_one : eInt 1 0 = 1 := by
  have h : ∀ x : ℝ, HasDerivAt (fun x : ℝ => (x - 1) * Real.exp x) (x ^ 1 * (1 - x) ^ 0 * Real.exp x) x := by
    intro x
    refine (((hasDerivAt_id x).sub_const 1).mul (Real.hasDerivAt_exp x)).congr_deriv ?_
    simp
    ring
  rw [eInt, integral_eq_sub_of_hasDerivAt (fun x _ => h x) ((eInt_cont 1 0).intervalIntegrable 0 1)]
  simp

/-- the regular coefficients of `e`: `2`, then `1, 2k, 1` for `k = 1, 2, …` -/
def eC (k : ℕ) : ℤ := if k = 0 then 2 else if k % 3 = 2 then 2 * ((k + 1) / 3 : ℕ) else 1

/-- `eErr (k+1)/eErr (k+2)` is the `k`-th complete quotient for `k ≥ 1`; `eErr 0 = e`, `eErr 1 = 1` -/
noncomputable def eErr (k : ℕ) : ℝ :=
  if k = 0 then Real.exp 1
  else
    if k % 3 = 1 then eInt (k / 3 + 1) (k / 3) / (k / 3).factorial
    else if k % 3 = 2 then eInt (k / 3) (k / 3 + 1) / (k / 3).factorial
    else eInt (k / 3) (k / 3) / (k / 3).factorial

theorem eErr_pos (k : ℕ) : 0 < eErr k := by
  unfold eErr
  split
  · exact Real.exp_pos 1
  · have h := Nat.cast_pos (α := ℝ) |>.mpr (Nat.factorial_pos (k / 3))
    split
    · exact div_pos (eInt_pos _ _) h
    · split
      · exact div_pos (eInt_pos _ _) h
      · exact div_pos (eInt_pos _ _) h

theorem eErr_J (n : ℕ) : eErr (3 * n + 1) = eInt (n + 1) n / n.factorial := by
  unfold eErr
  rw [if_neg (by omega), if_pos (by omega), show (3 * n + 1) / 3 = n by omega]

theorem eErr_K (n : ℕ) : eErr (3 * n + 2) = eInt n (n + 1) / n.factorial := by
  unfold eErr
  rw [if_neg (by omega), if_neg (by omega), if_pos (by omega), show (3 * n + 2) / 3 = n by omega]

theorem eErr_I (n : ℕ) : eErr (3 * n + 3) = eInt (n + 1) (n + 1) / (n + 1).factorial := by
  unfold eErr
  rw [if_neg (by omega), if_neg (by omega), if_neg (by omega), show (3 * n + 3) / 3 = n + 1 by omega]

theorem eErr_rec (k : ℕ) : eErr k = eC k * eErr (k + 1) + eErr (k + 2) := by
  have hf : ∀ n : ℕ, (n.factorial : ℝ) ≠ 0 := fun n => by exact_mod_cast n.factorial_ne_zero
  rcases Nat.eq_zero_or_pos k with rfl | hk
  · have h1 := eErr_J 0
    have h2 := eErr_K 0
    have h3 := eInt_split 0 0
    rw [eInt_zero, eInt_one] at h3
    simp only [Nat.mul_zero, Nat.zero_add, Nat.factorial_zero, Nat.cast_one, div_one] at h1 h2
    rw [eInt_one] at h1
    rw [h1, h2, show eErr 0 = Real.exp 1 from rfl, show eC 0 = 2 from rfl]
    simp only [Nat.zero_add] at h3
    push_cast
    linarith
  · obtain ⟨n, hn⟩ : ∃ n, k = 3 * n + 1 ∨ k = 3 * n + 2 ∨ k = 3 * n + 3 :=
      ⟨(k - 1) / 3, by omega⟩
    rcases hn with rfl | rfl | rfl
    · have hc : eC (3 * n + 1) = 1 := by unfold eC; rw [if_neg (by omega), if_neg (by omega)]
      rw [hc, eErr_J, show 3 * n + 1 + 1 = 3 * n + 2 from rfl, show 3 * n + 1 + 2 = 3 * n + 3 from rfl, eErr_K, eErr_I,
        Nat.factorial_succ]
      have := eInt_parts n n
      have hn1 : ((n : ℝ) + 1) ≠ 0 := by positivity
      have := hf n
      push_cast
      field_simp
      linarith
    · have hc : eC (3 * n + 2) = 2 * (n + 1) := by
        unfold eC
        rw [if_neg (by omega), if_pos (by omega), show (3 * n + 2 + 1) / 3 = n + 1 by omega]
        push_cast; ring
      rw [hc, eErr_K, show 3 * n + 2 + 1 = 3 * n + 3 from rfl, show 3 * n + 2 + 2 = 3 * (n + 1) + 1 by ring, eErr_I, eErr_J,
        Nat.factorial_succ]
      have h1 := eInt_parts n (n + 1)
      have h2 := eInt_split n (n + 1)
      have h3 := eInt_split (n + 1) (n + 1)
      have hn1 : ((n : ℝ) + 1) ≠ 0 := by positivity
      have := hf n
      push_cast at h1 ⊢
      field_simp
      linear_combination h1 + (n + 1) * h2 + h3
    · have hc : eC (3 * n + 3) = 1 := by unfold eC; rw [if_neg (by omega), if_neg (by omega)]
      rw [hc, show 3 * n + 3 + 1 = 3 * (n + 1) + 1 by ring, show 3 * n + 3 + 2 = 3 * (n + 1) + 2 by ring, eErr_I, eErr_J,
        eErr_K, eInt_split (n + 1) (n + 1)]
      push_cast
      ring

theorem eC_pos (k : ℕ) : 1 ≤ eC k := by
  unfold eC
  split
  · norm_num
  · split
    · have : 1 ≤ (k + 1) / 3 := by omega
      omega
    · rfl

/-- the pairs `(1, cₖ)` -/
def eG (k : ℕ) : ℤ × ℤ := (1, eC k)

theorem eG_pos : PosG eG := ⟨rfl, by have := eC_pos 0; simp only [eG]; omega, fun k => ⟨le_rfl, eC_pos (k + 1)⟩⟩

theorem eG_chain : Chain eG fun k => eErr k / eErr (k + 1) := by
  intro k
  have h0 := eErr_pos k
  have h1 := eErr_pos (k + 1)
  have h2 := eErr_pos (k + 2)
  refine ⟨div_pos h0 h1, ?_⟩
  simp only [eG]
  rw [eErr_rec k]
  push_cast
  field_simp

theorem eG_val : GVal eG (Real.exp 1) := by
  have h := eG_chain.cto eG_pos.posT fun k => by
    simp only [eG]
    have h1 := eC_pos (k + 1)
    have h2 := eC_pos (k + 2)
    nlinarith
  have e : eErr 0 / eErr (0 + 1) = Real.exp 1 := by
    have h1 := eErr_J 0
    simp only [Nat.mul_zero, Nat.zero_add, Nat.factorial_zero, Nat.cast_one, div_one, eInt_one] at h1
    rw [Nat.zero_add, h1, div_one]; rfl
  rw [e] at h
  exact h.gVal eG_pos

end NumIrr
