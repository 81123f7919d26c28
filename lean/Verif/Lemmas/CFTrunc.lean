/-
Truncations of periodic fractions.
-/
import Mathlib.Data.List.Basic
import Verif.Lemmas.CFAct

namespace NumIrr

theorem coeffAt_lt {α : Type} [Zero α] (a p : List α) {n : Nat} (h : n < a.length) :
    coeffAt a p n = a[n] := by
  unfold coeffAt
  rw [if_pos h, List.getD_eq_getElem?_getD, List.getElem?_eq_getElem h]
  rfl

theorem coeffAt_add {α : Type} [Zero α] (a p : List α) (n : Nat) :
    coeffAt a p (a.length + n) = coeffAt [] p n := by
  unfold coeffAt
  rw [if_neg (by omega), if_neg (by simp)]
  simp

theorem truncTo_length {α : Type} [Zero α] (a p : List α) (n : Nat) : (truncTo a p n).length = n := by
  simp [truncTo]

theorem truncTo_self {α : Type} [Zero α] (a p : List α) : truncTo a p a.length = a := by
  apply List.ext_getElem
  · simp [truncTo]
  · intro i h1 h2
    simp only [truncTo, List.getElem_map, List.getElem_range]
    exact coeffAt_lt a p h2

theorem truncTo_take {α : Type} [Zero α] (a p : List α) {n : Nat} (h : n ≤ a.length) : truncTo a p n = a.take n := by
  apply List.ext_getElem
  · simp [truncTo]; omega
  · intro i h1 h2
    simp only [truncTo, List.getElem_map, List.getElem_range, List.getElem_take]
    exact coeffAt_lt a p (by simp at h2; omega)

theorem truncTo_add {α : Type} [Zero α] (a p : List α) (m : Nat) :
    truncTo a p (a.length + m) = a ++ truncTo [] p m := by
  have h := truncTo_self a p
  unfold truncTo at *
  rw [List.range_add, List.map_append, h, List.map_map]
  congr 1
  apply List.map_congr_left
  intro i _
  exact coeffAt_add a p i

theorem truncTo_succ {α : Type} [Zero α] (a p : List α) (n : Nat) :
    truncTo a p (n + 1) = truncTo a p n ++ [coeffAt a p n] := by
  simp [truncTo, List.range_succ]

theorem coeffAt_periodic {α : Type} [Zero α] (p : List α) (n : Nat) :
    coeffAt [] p (p.length + n) = coeffAt [] p n := by
  unfold coeffAt; simp

theorem coeffAt_period_lt {α : Type} [Zero α] (p : List α) {n : Nat} (h : n < p.length) :
    coeffAt [] p n = p[n] := by
  unfold coeffAt
  rw [if_neg (by simp), List.length_nil, Nat.sub_zero, Nat.mod_eq_of_lt h, List.getD_eq_getElem?_getD,
    List.getElem?_eq_getElem h]
  rfl

/-- the periodic part once more -/
theorem truncTo_period {α : Type} [Zero α] (p : List α) (m : Nat) :
    truncTo [] p (p.length + m) = p ++ truncTo [] p m := by
  have h : (List.range p.length).map (coeffAt [] p) = p := by
    apply List.ext_getElem
    · simp
    · intro i h1 h2
      simp only [List.getElem_map, List.getElem_range]
      exact coeffAt_period_lt p h2
  unfold truncTo at *
  rw [List.range_add, List.map_append, h, List.map_map]
  congr 1
  apply List.map_congr_left
  intro i _
  exact coeffAt_periodic p i

theorem coeffAt_map {α β : Type} [Zero α] [Zero β] (f : α → β) (hf : f 0 = 0) (a p : List α) (n : Nat) :
    coeffAt (a.map f) (p.map f) n = f (coeffAt a p n) := by
  unfold coeffAt
  have h : ∀ (l : List α) i, (l.map f).getD i 0 = f (l.getD i 0) := by
    intro l i
    simp only [List.getD_eq_getElem?_getD, List.getElem?_map]
    cases l[i]? with
    | none => simp [hf]
    | some v => rfl
  simp only [List.length_map, h]
  split <;> rfl

theorem truncTo_map {α β : Type} [Zero α] [Zero β] (f : α → β) (hf : f 0 = 0) (a p : List α) (n : Nat) :
    truncTo (a.map f) (p.map f) n = (truncTo a p n).map f := by
  unfold truncTo
  rw [List.map_map]
  apply List.map_congr_left
  intro i _
  exact coeffAt_map f hf a p i

/-- every coefficient of the periodic part comes from the period -/
theorem coeffAt_mem {α : Type} [Zero α] (a p : List α) (hp : p ≠ []) {n : Nat} (h : a.length ≤ n) :
    coeffAt a p n ∈ p := by
  obtain ⟨m, rfl⟩ := Nat.exists_eq_add_of_le h
  rw [coeffAt_add]
  unfold coeffAt
  have hl : 0 < p.length := List.length_pos_iff.2 hp
  have := Nat.mod_lt m hl
  rw [if_neg (by simp), List.length_nil, Nat.sub_zero, List.getD_eq_getElem?_getD, List.getElem?_eq_getElem this]
  exact List.getElem_mem _

/-- fractions whose prefixes act the same have the same values -/
theorem valOf_prefix {a a' p : List Int} (hp : p ≠ []) (h : ∀ l, cfVal (a ++ l) = cfVal (a' ++ l)) {x : ℝ}
    (hx : ValOf a p x) : ValOf a' p x := by
  unfold ValOf at *
  rw [if_neg hp] at *
  intro ε hε
  obtain ⟨N, hN⟩ := hx ε hε
  refine ⟨a'.length + N, fun n hn => ?_⟩
  obtain ⟨m, rfl⟩ := Nat.exists_eq_add_of_le (show a'.length ≤ n by omega)
  obtain ⟨q, h1, h2⟩ := hN (a.length + m) (by omega)
  refine ⟨q, ?_, h2⟩
  rw [truncTo_add, ← h, ← truncTo_add]
  exact h1

end NumIrr
