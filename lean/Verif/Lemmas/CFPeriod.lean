/-
Existence of the value of periodic fractions with arbitrary integers before the period.
-/
import Verif.Lemmas.CFConv

namespace NumIrr

theorem truncTo_cons (b : Int) (a p : List Int) (n : Nat) : truncTo (b :: a) p (n + 1) = b :: truncTo a p n := by
  rw [truncTo_eq_tr, tr_cons, truncTo_eq_tr]
  congr 1
  congr 1
  funext i
  unfold shft coeffAt
  simp only [List.length_cons, Nat.add_comm 1 i, Nat.add_lt_add_iff_right, List.getD_cons_succ, Nat.add_sub_add_right]

/-- putting one more coefficient in front -/
theorem valOf_cons {a p : List Int} (hp : p ≠ []) {x : ℝ} (hx : ValOf a p x) (h0 : x ≠ 0) (b : Int) :
    ValOf (b :: a) p (b + 1 / x) := by
  unfold ValOf at *
  rw [if_neg hp] at *
  intro ε hε
  have hax : 0 < |x| := abs_pos.2 h0
  obtain ⟨N, hN⟩ := hx (min (|x| / 2) (ε * |x| * |x| / 4)) (by positivity)
  refine ⟨N + 1, fun n hn => ?_⟩
  obtain ⟨m, rfl⟩ := Nat.exists_eq_add_of_le hn
  obtain ⟨q, h1, h2⟩ := hN (N + m) (by omega)
  have h3 := lt_of_lt_of_le h2 (min_le_left _ _)
  have h4 := lt_of_lt_of_le h2 (min_le_right _ _)
  have hq : |x| / 2 < |(q : ℝ)| := by
    have := abs_sub_abs_le_abs_sub x (q : ℝ)
    rw [abs_sub_comm] at this
    linarith
  have hq0 : (q : ℝ) ≠ 0 := by
    intro h; rw [h, abs_zero] at hq; linarith
  have hq0' : q ≠ 0 := by exact_mod_cast hq0
  refine ⟨b + 1 / q, ?_, ?_⟩
  · rw [show N + 1 + m = N + m + 1 by omega, truncTo_cons, cfVal, h1]
    simp [hq0']
  · push_cast
    have e : ((b : ℝ) + 1 / (q : ℝ)) - ((b : ℝ) + 1 / x) = (x - q) / (q * x) := by field_simp; ring
    rw [e, abs_div, abs_mul, div_lt_iff₀ (by positivity), abs_sub_comm]
    have h5 : ε * |x| * |x| / 4 < ε * (|(q : ℝ)| * |x|) := by
      have : 0 < ε * |x| := by positivity
      nlinarith
    linarith

/-- a periodic fraction with a positive period has an irrational value, whatever comes before the period -/
theorem valOf_exists (a p : List Int) (hp : p ≠ []) (hp1 : ∀ v ∈ p, 1 ≤ v) : ∃ x, ValOf a p x ∧ Irrational x := by
  induction a with
  | nil =>
    have h : PosSeq (coeffAt [] p) := fun n => hp1 _ (coeffAt_mem [] p hp (by simp))
    exact ⟨_, valOf_cfLim hp h, cfLim_irrational h⟩
  | cons b a ih =>
    obtain ⟨x, h1, h2⟩ := ih
    exact ⟨_, valOf_cons hp h1 h2.ne_zero b, by
      have : Irrational (1 / x) := by rw [one_div]; exact h2.inv
      exact this.intCast_add b⟩

end NumIrr
