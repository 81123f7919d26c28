/-
The number of reduced states bounds the length of the period.
-/
import Mathlib.Algebra.BigOperators.Intervals
import Verif.Lemmas.CFShort

namespace NumIrr
namespace Lagrange

variable {d rd : ℤ}

/-- the number of reduced states -/
theorem recur_bound (hr : Root d rd) (x : ℤ × ℤ) (h : Red d rd x.1 x.2) :
    ∃ k : ℕ, (k + 1 : ℤ) ≤ rd * (rd + 1) ∧ (stp d rd)^[k + 1] x = x := by
  obtain ⟨R, hR⟩ : ∃ R : ℕ, (R : ℤ) = rd := ⟨rd.toNat, Int.toNat_of_nonneg (by have := hr.pos; omega)⟩
  set S : Finset (Σ _ : ℤ, ℤ) := (Finset.Icc (1 : ℤ) rd).sigma fun p => Finset.Ioc (rd - p) (rd + p) with hS
  have hcard : (S.card : ℤ) = rd * (rd + 1) := by
    rw [hS, Finset.card_sigma]
    have e : ∀ p ∈ Finset.Icc (1 : ℤ) rd, ((Finset.Ioc (rd - p) (rd + p)).card : ℤ) = 2 * p := by
      intro p hp
      rw [Finset.mem_Icc] at hp
      rw [Int.card_Ioc]; omega
    push_cast
    rw [Finset.sum_congr rfl e]
    clear e hS S
    rw [← hR]
    clear hR
    induction R with
    | zero => simp
    | succ R ih =>
      have : Finset.Icc (1 : ℤ) ((R + 1 : ℕ) : ℤ) = insert ((R : ℤ) + 1) (Finset.Icc (1 : ℤ) R) := by
        ext y; simp only [Finset.mem_Icc, Finset.mem_insert]; push_cast; omega
      rw [this, Finset.sum_insert (by simp), ih]
      push_cast; ring
  have hmem : ∀ n, (⟨((stp d rd)^[n] x).1, ((stp d rd)^[n] x).2⟩ : Σ _ : ℤ, ℤ) ∈ S := fun n => by
    have hred := iter_red hr x h n
    have b := hred.bounds
    have i := hred.red
    unfold isReduced at i
    simp only [Bool.and_eq_true, decide_eq_true_eq] at i
    rw [hS, Finset.mem_sigma, Finset.mem_Icc, Finset.mem_Ioc]
    refine ⟨⟨b.1, b.2.1⟩, ?_, ?_⟩ <;> simp only <;> omega
  obtain ⟨m, hm, n, hn, hne, he⟩ := Finset.exists_ne_map_eq_of_card_lt_of_maps_to (s := Finset.range (S.card + 1)) (t := S)
    (f := fun n => (⟨((stp d rd)^[n] x).1, ((stp d rd)^[n] x).2⟩ : Σ _ : ℤ, ℤ)) (by simp) (fun n _ => hmem n)
  have he' : (stp d rd)^[m] x = (stp d rd)^[n] x := by
    simp only [Sigma.mk.injEq, heq_eq_eq] at he
    exact Prod.ext he.1 he.2
  rw [Finset.mem_range] at hm hn
  have key : ∀ m n : ℕ, m < n → n < S.card + 1 → (stp d rd)^[m] x = (stp d rd)^[n] x →
      ∃ k : ℕ, (k + 1 : ℤ) ≤ rd * (rd + 1) ∧ (stp d rd)^[k + 1] x = x := by
    intro m n hlt hb he
    refine ⟨n - m - 1, by rw [← hcard]; omega, ?_⟩
    have e : n = m + (n - m - 1 + 1) := by omega
    rw [e, Function.iterate_add_apply] at he
    exact (iter_inj hr h (iter_red hr x h _) m he).symm
  rcases lt_or_gt_of_ne hne with hlt | hlt
  · exact key m n hlt hn he'
  · exact key n m hlt hm he'.symm

/-- the first return of the period -/
theorem pRun_length (hr : Root d rd) {p q : ℤ} (h : Red d rd p q) {ps : List ℤ} (hp : PRun d rd p q p q ps) :
    (ps.length : ℤ) ≤ rd * (rd + 1) := by
  obtain ⟨k, h1, h2⟩ := recur_bound hr (p, q) h
  have := hp.first.2 (k + 1) (by omega) h2
  have : (ps.length : ℤ) ≤ (k : ℤ) + 1 := by exact_mod_cast this
  omega

end Lagrange
end NumIrr
