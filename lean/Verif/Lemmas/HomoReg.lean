/-
Regular continued fractions as generalized ones; irrationality of Möbius images; nested values.
-/
import Verif.Lemmas.HomoStep
import Verif.Lemmas.CFConv

namespace NumIrr

open Block Filter Topology

/-- the pairs of a regular continued fraction -/
def regG (c : ℕ → ℤ) : ℕ → ℤ × ℤ := fun k => (1, c k)

theorem gP_regG (c : ℕ → ℤ) (n : ℕ) :
    gP (regG c) n = cP c n ∧ gQ (regG c) n = cQ c n ∧ gP (regG c) (n + 1) = cP c (n + 1) ∧
      gQ (regG c) (n + 1) = cQ c (n + 1) := by
  induction n with
  | zero => simp [gP_one, gQ_one, regG]
  | succ n ih =>
    obtain ⟨h1, h2, h3, h4⟩ := ih
    refine ⟨h3, h4, ?_, ?_⟩
    · rw [gP_rec, h1, h3, cP_rec]; simp only [regG]; ring
    · rw [gQ_rec, h2, h4, cQ_rec]; simp only [regG]; ring

theorem regG_posT {c : ℕ → ℤ} (h : PosSeq c) (h0 : 0 ≤ c 0) : PosT (regG c) := ⟨fun _ => le_rfl, h0, h⟩

theorem regG_cto {c : ℕ → ℤ} (h : PosSeq c) : CTo (regG c) (cfLim c) := by
  refine (cfLim_tendsto h).congr fun n => ?_
  rw [(gP_regG c n).2.2.1, (gP_regG c n).2.2.2]; rfl

/-- the coefficients of the regular expansion -/
noncomputable def regc (x : ℝ) (k : ℕ) : ℤ := ⌊tails x k⌋

theorem regc_pos {x : ℝ} (hx : Irrational x) : PosSeq (regc x) := fun n => by
  rw [regc, Int.le_floor]
  exact_mod_cast (tails_gt_one hx n).le

theorem tails_pos {x : ℝ} (hx : Irrational x) (h0 : 0 < x) (n : ℕ) : 0 < tails x n := by
  cases n with
  | zero => exact h0
  | succ n => linarith [tails_gt_one hx n]

theorem tails_tails (x : ℝ) (k n : ℕ) : tails (tails x k) n = tails x (k + n) := by
  induction n with
  | zero => rfl
  | succ n ih => rw [tails_succ, ih, ← Nat.add_assoc, tails_succ]

theorem regc_tails (x : ℝ) (k n : ℕ) : regc (tails x k) n = regc x (k + n) := by
  rw [regc, regc, tails_tails]

theorem regc_lim {x : ℝ} (hx : Irrational x) : cfLim (regc x) = x :=
  (cfLim_of_chain (regc_pos hx) (tails x) (fun n => tails_eq x n)
    (fun n => by linarith [tails_gt_one hx n])).symm

theorem regc_cto {x : ℝ} (hx : Irrational x) : CTo (regG (regc x)) x := by
  have := regG_cto (regc_pos hx)
  rwa [regc_lim hx] at this

/-! ### irrational Möbius images -/

theorem den_ne {x : ℝ} (hx : Irrational x) {c d : ℤ} (h : ¬ (c = 0 ∧ d = 0)) : (c : ℝ) * x + d ≠ 0 := by
  intro h0
  by_cases hc : c = 0
  · subst hc
    have : (d : ℝ) = 0 := by simpa using h0
    exact h ⟨rfl, by exact_mod_cast this⟩
  · have hc' : (c : ℝ) ≠ 0 := by exact_mod_cast hc
    apply hx
    refine ⟨-d / c, ?_⟩
    push_cast
    field_simp
    linarith

theorem mobius_irrational {x : ℝ} (hx : Irrational x) {a b c d : ℤ} (h : a * d - b * c ≠ 0) :
    Irrational (((a : ℝ) * x + b) / (c * x + d)) := by
  have hcd : ¬ (c = 0 ∧ d = 0) := by rintro ⟨rfl, rfl⟩; simp at h
  have h0 := den_ne hx hcd
  rintro ⟨q, hq⟩
  rw [eq_div_iff h0] at hq
  by_cases ha : (a : ℝ) - q * c = 0
  · have hb : (b : ℝ) - q * d = 0 := by linear_combination -hq - ha * x
    apply h
    have : (a : ℝ) * d - b * c = 0 := by linear_combination d * ha - c * hb
    exact_mod_cast this
  · apply hx
    refine ⟨(q * d - b) / (a - q * c), ?_⟩
    push_cast
    rw [div_eq_iff ha]
    linear_combination hq

theorem nestPair_nestVal (l : List ℤ) (u v : ℝ) (h0 : (nestPair l (u, v)).2 ≠ 0)
    (hi : Irrational ((nestPair l (u, v)).1 / (nestPair l (u, v)).2)) :
    v ≠ 0 ∧ (nestPair l (u, v)).1 / (nestPair l (u, v)).2 = nestVal l (u / v) := by
  induction l with
  | nil => exact ⟨h0, rfl⟩
  | cons i l ih =>
    simp only [nestPair] at h0 hi ⊢
    have e : ((i : ℝ) * (nestPair l (u, v)).1 + (nestPair l (u, v)).2) / (nestPair l (u, v)).1
        = i + 1 / ((nestPair l (u, v)).1 / (nestPair l (u, v)).2) := by
      rw [one_div_div]; field_simp
    have h2 : (nestPair l (u, v)).2 ≠ 0 := by
      intro h
      rw [e, h] at hi
      simp at hi
    rw [e] at hi
    have h3 : Irrational ((nestPair l (u, v)).1 / (nestPair l (u, v)).2) := by
      have := (hi.sub_intCast i).inv
      rw [add_sub_cancel_left, one_div, inv_inv] at this
      exact this
    obtain ⟨h4, h5⟩ := ih h2 h3
    refine ⟨h4, ?_⟩
    rw [e, h5]; rfl

end NumIrr
