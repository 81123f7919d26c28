/-
Periodic fractions whose coefficients agree from some place on have the same period up to rotation.
-/
import Verif.Lemmas.CFShort
import Mathlib.Data.List.GetD
import Mathlib.Data.List.Rotate

namespace NumIrr
namespace CF

theorem coeffAt_ge (a p : List ℕ) {n : ℕ} (h : a.length ≤ n) : coeffAt a p n = p.getD ((n - a.length) % p.length) 0 := by
  unfold coeffAt
  rw [if_neg (by omega)]

theorem period_le {c : CF} {a' p' : List ℕ} (hp' : p' ≠ []) (h2 : c.ShortestPeriod) {m k : ℕ}
    (e : ∀ n, coeffAt c.a c.p (m + n) = coeffAt a' p' (k + n)) : c.p.length ≤ p'.length := by
  wlog hm : 1 ≤ m ∧ a'.length ≤ k generalizing m k
  · refine this (m := m + (a'.length + 1)) (k := k + (a'.length + 1)) (fun n => ?_) (by omega)
    rw [Nat.add_assoc m, Nat.add_assoc k, e]
  obtain ⟨hm, hk⟩ := hm
  have hL : 0 < p'.length := List.length_pos_of_ne_nil hp'
  have := h2 (truncTo c.a c.p m) ((List.range p'.length).map fun i => coeffAt c.a c.p (m + i)) ⟨?_, ?_, ?_⟩
  · simpa using this
  · intro h
    have := congrArg List.length h
    simp [truncTo] at this
    omega
  · intro h
    have := congrArg List.length h
    rw [List.length_map, List.length_range, List.length_nil] at this
    omega
  · intro n
    by_cases hn : n < m
    · rw [coeffAt_lt _ _ (by simpa [truncTo] using hn)]
      simp [truncTo]
    · rw [coeffAt_ge _ _ (by simpa [truncTo] using hn)]
      simp only [truncTo, List.length_map, List.length_range]
      have hlt : (n - m) % p'.length < p'.length := Nat.mod_lt _ hL
      rw [List.getD_eq_getElem _ _ (by simpa using hlt), List.getElem_map, List.getElem_range, e]
      have h1 := coeff_periodic a' (p := p') (n := k + (n - m) % p'.length) (by omega) ((n - m) / p'.length)
      rw [← h1, Nat.add_assoc, Nat.mul_comm, Nat.mod_add_div, ← e, show m + (n - m) = n by omega]

theorem rotated_of_length {a p a' p' : List ℕ} (hp : p ≠ []) (hl : p.length = p'.length) {m k : ℕ}
    (e : ∀ n, coeffAt a p (m + n) = coeffAt a' p' (k + n)) : p ~r p' := by
  obtain ⟨N, hN⟩ : ∃ N, N = a.length + a'.length := ⟨_, rfl⟩
  have hL : 0 < p.length := List.length_pos_of_ne_nil hp
  have hL' : 0 < p'.length := by omega
  have key : p.rotate (m + N - a.length) = p'.rotate (k + N - a'.length) := by
    refine List.ext_getElem (by simpa using hl) fun n h1 h3 => ?_
    rw [List.getElem_rotate, List.getElem_rotate]
    have := e (N + n)
    rw [coeffAt_ge _ _ (by omega), coeffAt_ge _ _ (by omega),
      List.getD_eq_getElem _ _ (Nat.mod_lt _ hL), List.getD_eq_getElem _ _ (Nat.mod_lt _ hL')] at this
    have i1 : n + (m + N - a.length) = m + (N + n) - a.length := by omega
    have i2 : n + (k + N - a'.length) = k + (N + n) - a'.length := by omega
    simp only [i1, i2]
    exact this
  exact (List.IsRotated.forall p _).symm.trans (key ▸ List.IsRotated.forall p' _)

theorem periods_rotated {c c' : CF} (hp : c.p ≠ []) (hp' : c'.p ≠ []) (h2 : c.ShortestPeriod) (h2' : c'.ShortestPeriod)
    {m k : ℕ} (e : ∀ n, coeffAt c.a c.p (m + n) = coeffAt c'.a c'.p (k + n)) : c.p ~r c'.p :=
  rotated_of_length hp (le_antisymm (period_le hp' h2 e) (period_le hp h2' fun n => (e n).symm)) e

theorem rotated_periods {c c' : CF} (hp : c.p ≠ []) (h : c.p ~r c'.p) :
    ∃ m k, ∀ n, coeffAt c.a c.p (m + n) = coeffAt c'.a c'.p (k + n) := by
  obtain ⟨r, hr⟩ := h
  have hL : 0 < c.p.length := List.length_pos_of_ne_nil hp
  have hl : c'.p.length = c.p.length := by rw [← hr, List.length_rotate]
  refine ⟨c.a.length + r, c'.a.length, fun n => ?_⟩
  rw [coeffAt_ge _ _ (by omega), coeffAt_ge _ _ (by omega), List.getD_eq_getElem _ _ (Nat.mod_lt _ hL),
    List.getD_eq_getElem _ _ (Nat.mod_lt _ (by omega))]
  simp only [← hr, List.getElem_rotate, List.length_rotate]
  congr 1
  rw [Nat.add_sub_cancel_left, Nat.mod_add_mod, show c.a.length + r + n - c.a.length = n + r by omega]

end CF
end NumIrr
