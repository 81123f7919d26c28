/-
Convergents as best approximations.
-/
import Verif.Lemmas.CFWidth
import Verif.Lemmas.FixedCFIter
import Verif.Lemmas.CFErr2

namespace NumIrr

/-- two neighbouring fractions on different sides of a number beat every fraction with a smaller denominator -/
theorem best_pair {P Q P' Q' p q : Int} {X : ℝ} (he : P' * Q - P * Q' = 1 ∨ P' * Q - P * Q' = -1)
    (hs : (Q * X - P) * (Q' * X - P') ≤ 0) (hQ : 1 ≤ Q) (hq : 1 ≤ q) (hq' : q < Q') :
    |Q * X - P| ≤ |q * X - p| := by
  obtain ⟨e, hee, he'⟩ : ∃ e : Int, e * e = 1 ∧ P' * Q - P * Q' = e := by
    rcases he with h | h
    · exact ⟨1, by norm_num, h⟩
    · exact ⟨-1, by norm_num, h⟩
  obtain ⟨u, hu⟩ : ∃ u, u = -e * (p * Q' - q * P') := ⟨_, rfl⟩
  obtain ⟨v, hv⟩ : ∃ v, v = e * (p * Q - q * P) := ⟨_, rfl⟩
  have hp1 : p = u * P + v * P' := by
    have : u * P + v * P' = e * p * (P' * Q - P * Q') := by rw [hu, hv]; ring
    rw [this, he', mul_right_comm, hee, one_mul]
  have hq1 : q = u * Q + v * Q' := by
    have : u * Q + v * Q' = e * q * (P' * Q - P * Q') := by rw [hu, hv]; ring
    rw [this, he', mul_right_comm, hee, one_mul]
  have hu0 : u ≠ 0 := by
    rintro h
    rw [h, zero_mul, zero_add] at hq1
    rcases lt_or_ge v 1 with h1 | h1
    · nlinarith
    · nlinarith
  have huv : u * v ≤ 0 := by
    rcases lt_trichotomy v 0 with h1 | h1 | h1
    · have : 0 < u := by
        by_contra hc
        nlinarith
      nlinarith
    · rw [h1]; simp
    · have : u < 0 := by
        by_contra hc
        nlinarith
      nlinarith
  have hu1 : (1 : Int) ≤ u * u := by
    rcases lt_or_gt_of_ne hu0 with h | h <;> nlinarith
  have huvR : (u : ℝ) * v ≤ 0 := by exact_mod_cast huv
  have hu1R : (1 : ℝ) ≤ (u : ℝ) * u := by exact_mod_cast hu1
  have e1 : (q : ℝ) * X - p = u * (Q * X - P) + v * (Q' * X - P') := by
    rw [hp1, hq1]; push_cast; ring
  rw [e1]
  apply sq_le_sq.1
  generalize (Q * X - P : ℝ) = D at hs ⊢
  generalize (Q' * X - P' : ℝ) = D' at hs ⊢
  have h1 : 0 ≤ (u * v : ℝ) * (D * D') := mul_nonneg_of_nonpos_of_nonpos huvR hs
  have h2 : 1 * D ^ 2 ≤ (u : ℝ) * u * D ^ 2 := mul_le_mul_of_nonneg_right hu1R (sq_nonneg D)
  nlinarith [sq_nonneg ((v : ℝ) * D')]

namespace CF

theorem num_den_det (c : CF) (n : Nat) :
    c.num (n + 1) * c.den n - c.num n * c.den (n + 1) = 1 ∨ c.num (n + 1) * c.den n - c.num n * c.den (n + 1) = -1 := by
  have h := act_det (c.trunc (n + 2))
  have e : blockOf (c.trunc (n + 2)) = _ := block_succ c (n + 1)
  have e' : blockOf (c.trunc (n + 1)) = _ := block_succ c n
  have h1 : (act (c.trunc (n + 2)) ((1, 0) : Int × Int)).1 = c.num (n + 1) := congrArg Block.pm1 e
  have h2 : (act (c.trunc (n + 2)) ((1, 0) : Int × Int)).2 = c.den (n + 1) := congrArg Block.qm1 e
  have h3 : (act (c.trunc (n + 2)) ((0, 1) : Int × Int)).1 = c.num n := by
    have := congrArg Block.pm2 e
    rw [e'] at this
    exact this
  have h4 : (act (c.trunc (n + 2)) ((0, 1) : Int × Int)).2 = c.den n := by
    have := congrArg Block.qm2 e
    rw [e'] at this
    exact this
  rw [h1, h2, h3, h4] at h
  rw [h]
  exact neg_one_pow_eq_or Int _

theorem conv_side {c : CF} (h : c.Wf) {x : ℝ} (hx : c.HasVal x) {n : Nat} (hn : c.HasCoeff n) :
    0 ≤ (-1) ^ n * (c.den n * signed c.neg x - c.num n) ∧ (¬ c.HasCoeff (n + 1) → c.den n * signed c.neg x = c.num n) := by
  obtain ⟨q, -, h2⟩ := ratioNew_cfP _ (trunc_den_pos h hn)
  obtain ⟨h3, h4⟩ := cfVal_den h2 (trunc_den_pos h hn)
  obtain ⟨k1, k2, -⟩ := conv_err h hx hn h2
  have hd : (0 : ℝ) < c.den n := by exact_mod_cast (show 0 < c.den n from trunc_den_pos h hn)
  have hq : (q : ℝ) * c.den n = c.num n := by
    have e3 : ((q.den : Int) : ℝ) = c.den n := by exact_mod_cast h3
    have e4 : (q.num : ℝ) = c.num n := by exact_mod_cast h4
    rw [← e3, ← e4, Int.cast_natCast]
    exact_mod_cast Rat.mul_den_eq_num q
  constructor
  · have := mul_nonneg hd.le k1
    rw [← hq]
    linarith
  · intro hc
    rw [k2 hc, ← hq]; ring

theorem conv_best {c : CF} (h : c.Wf) {x : ℝ} (hx : c.HasVal x) {n : Nat} (hn : c.HasCoeff (n + 1)) {p q : Int}
    (hq : 1 ≤ q) (hq' : q < c.den (n + 1)) :
    |c.den n * signed c.neg x - c.num n| ≤ |q * signed c.neg x - p| := by
  have hn0 := hasCoeff_mono hn n (by omega)
  have h1 := (conv_side h hx hn0).1
  have h2 := (conv_side h hx hn).1
  refine best_pair (num_den_det c n) ?_ (trunc_den_pos h hn0) hq hq'
  rw [pow_succ] at h2
  have := mul_nonneg h1 h2
  have e : ((-1 : ℝ) ^ n) * (-1) ^ n = 1 := by rw [← pow_add, ← two_mul]; simp
  nlinarith

/-- a denominator between two convergents, or after the last one -/
theorem den_between {c : CF} (h : c.Wf) {q : Int} (hq : 1 ≤ q) :
    ∃ n, c.HasCoeff n ∧ c.den n ≤ q ∧ (c.HasCoeff (n + 1) → q < c.den (n + 1)) := by
  have h0 : c.HasCoeff 0 := .inr (List.length_pos_iff.2 h.1)
  have hd0 : c.den 0 = 1 := by
    have := den_eq c 0
    simp only [trunc, truncTo, List.range_zero, List.map_nil, blockOf, act] at this
    rw [this]; ring
  obtain ⟨M, hM⟩ : ∃ M, ¬ c.HasCoeff (M + 1) ∨ q < c.den (M + 1) := by
    by_cases hp : c.p = []
    · exact ⟨c.a.length, .inl (by rintro (h' | h'); exact h' hp; omega)⟩
    · refine ⟨q.toNat + 1, .inr ?_⟩
      have := cQ_ge (wf_posSeq h hp) (q.toNat + 1)
      have e : c.den (q.toNat + 1 + 1) = cQ (coeffAt (toInts c.a) (toInts c.p)) (q.toNat + 1 + 2) := rfl
      rw [e]; omega
  classical
  have hex : ∃ M, ¬ c.HasCoeff (M + 1) ∨ q < c.den (M + 1) := ⟨M, hM⟩
  have hs := Nat.find_spec hex
  have hm : ∀ m < Nat.find hex, _ := fun m hm => Nat.find_min hex hm
  generalize Nat.find hex = n at hs hm
  have hn : c.HasCoeff n ∧ c.den n ≤ q := by
    cases n with
    | zero => exact ⟨h0, by omega⟩
    | succ n =>
      have := hm n (by omega)
      push Not at this
      exact this
  exact ⟨n, hn.1, hn.2, fun hc => hs.resolve_left (fun h' => h' hc)⟩

end CF
end NumIrr
