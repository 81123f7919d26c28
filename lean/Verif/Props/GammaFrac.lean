/-
C48: the generalized continued fraction of Euler's constant.
-/
import Verif.Lemmas.GammaStep

namespace NumIrr

namespace GammaCoeffs

/-- a call of `next` which yields `p` -/
def Call (s : GammaCoeffs) (p : ℤ × ℤ) (s' : GammaCoeffs) : Prop := s.next = .ok (some p, s')

theorem toInteger_int (z : ℤ) : toInteger (z : ℚ) = z := by
  simp [toInteger]

/-- the state before the item number `n ≥ 2` -/
def At (n : ℕ) (s : GammaCoeffs) : Prop :=
  s = ⟨n, gamQ (n - 1), gamQ (n - 2), gamS (n - 1), gamRho (n - 1)⟩

theorem newRho_eq (n : ℕ) (q1 q2 : ℤ) (r : ℚ) : newRho ⟨n + 2, q1, q2, gamS (n + 1), r⟩ = gamRho (n + 2) := by
  unfold newRho gamRho
  simp only
  by_cases h0 : n = 0
  · subst h0; rfl
  by_cases h1 : n = 1
  · subst h1; rfl
  by_cases h2 : n = 2
  · subst h2; rfl
  rw [if_neg (by omega), if_neg (by omega), if_neg (by omega), if_neg (by omega), if_neg (by omega), if_neg (by omega),
    show n + 2 - 1 = n + 1 by omega]
  have hd : (2 : ℤ) ∣ ((n + 2 : ℕ) : ℤ) * ((n + 1 : ℕ) : ℤ) := by
    rcases Nat.even_or_odd' n with ⟨m, rfl | rfl⟩
    · exact ⟨(m + 1) * (2 * m + 1), by push_cast; ring⟩
    · exact ⟨(2 * m + 3) * (m + 1), by push_cast; ring⟩
  obtain ⟨c, hc⟩ := hd
  have hc' : ((n : ℚ) + 2) * (n + 1) = 2 * c := by exact_mod_cast hc
  rw [hc, Int.mul_tdiv_cancel_left _ (by norm_num)]
  push_cast
  linear_combination (-gamS (n + 1) / 2) * hc'

theorem next_at (n : ℕ) (s : GammaCoeffs) (h : At (n + 2) s) : ∃ p s', Call s p s' ∧ At (n + 3) s' ∧
    (p.1 : ℚ) = gamRho (n + 2) * gamRho (n + 1) * gamA (n + 2) ∧ (p.2 : ℚ) = gamRho (n + 2) * gamB (n + 2) := by
  unfold At at h
  subst h
  obtain ⟨za, hza⟩ := astar_int n
  obtain ⟨zb, hzb⟩ := bstar_int n
  have hs := gamS_ne (n + 1)
  have hq : newQ ⟨n + 2, gamQ (n + 1), gamQ n, gamS (n + 1), gamRho (n + 1)⟩ = (gamQ (n + 2) : ℤ) := by
    rw [gamQ_rec]; simp only [newQ, show n + 2 - 1 = n + 1 by omega]; push_cast; ring
  have hn : ((n + 2 : ℕ) : ℤ) ≠ 0 := by omega
  have hS : (((((n + 1 : ℕ) : ℤ) * ((n + 1 : ℕ) : ℤ) : ℤ)) : ℚ) * gamS (n + 1) + Rat.divInt (n : ℤ) ((n + 2 : ℕ) : ℤ) * (((gamQ (n + 1) : ℕ) : ℤ) : ℚ)
      = gamS (n + 2) := by
    rw [Rat.divInt_eq_div]
    show _ = ((n : ℚ) + 1) ^ 2 * gamS (n + 1) + n / (n + 2) * gamQ (n + 1)
    push_cast
    ring
  have ha : -gamS (n + 2) / gamS (n + 1) = gamA (n + 2) := by unfold gamA; rw [show n + 2 - 1 = n + 1 by omega]
  have hb : Rat.divInt ((n : ℤ) * (((gamQ n : ℕ)) : ℤ)) ((n + 2 : ℕ) : ℤ) / gamS (n + 1) + ((2 * ((n + 2 : ℕ) : ℤ) : ℤ) : ℚ)
      = gamB (n + 2) := by
    unfold gamB
    rw [show n + 2 - 1 = n + 1 by omega, show n + 2 - 2 = n by omega, Rat.divInt_eq_div]
    have : ((n : ℚ) + 2) ≠ 0 := by positivity
    push_cast
    field_simp
    ring
  refine ⟨(za, zb), ⟨n + 3, gamQ (n + 2), gamQ (n + 1), gamS (n + 2), gamRho (n + 2)⟩, ?_, rfl, hza, hzb⟩
  unfold Call next
  simp only [show n + 2 - 1 = n + 1 by omega, show n + 2 - 2 = n by omega, show n + 2 ≠ 0 by omega, show n + 2 ≠ 1 by omega,
    if_false, ratioNew, if_neg hn, ratioDiv, hs, bind, Except.bind, pure, Except.pure, hS, ha, hb, newRho_eq, ← hza, ← hzb,
    toInteger_int, hq]

/-- C48: `next` never panics and never ends, and for every `n ≥ 2` the emitted pair is exactly
`(ρₙ·ρₙ₋₁·aₙ, ρₙ·bₙ)`: the roundings lose nothing. -/
theorem gamma_exact (n : ℕ) : ∃ (l : List (ℤ × ℤ)) (s : GammaCoeffs), l.length = n ∧ Outs Call new l s ∧
    ∀ i (hi : i < l.length), (i = 0 → l[i] = (1, 0)) ∧ (i = 1 → l[i] = (1, 2)) ∧
      (2 ≤ i → ((l[i]).1 : ℚ) = gamRho i * gamRho (i - 1) * gamA i ∧ ((l[i]).2 : ℚ) = gamRho i * gamB i) := by
  suffices H : ∃ (l : List (ℤ × ℤ)) (s : GammaCoeffs), l.length = n ∧ Outs Call new l s ∧
      (n = 0 → s = new) ∧ (n = 1 → s = { new with n := 1 }) ∧ (2 ≤ n → At n s) ∧
      ∀ i (hi : i < l.length), (i = 0 → l[i] = (1, 0)) ∧ (i = 1 → l[i] = (1, 2)) ∧
        (2 ≤ i → ((l[i]).1 : ℚ) = gamRho i * gamRho (i - 1) * gamA i ∧ ((l[i]).2 : ℚ) = gamRho i * gamB i) by
    obtain ⟨l, s, h1, h2, -, -, -, h3⟩ := H
    exact ⟨l, s, h1, h2, h3⟩
  induction n with
  | zero => exact ⟨[], new, rfl, Outs.nil _, fun _ => rfl, fun h => by omega, fun h => by omega, fun i hi => by simp at hi⟩
  | succ n ih =>
    obtain ⟨l, s, h1, h2, h3, h4, h5, h6⟩ := ih
    suffices H : ∃ p s', Call s p s' ∧ (n = 0 → p = (1, 0) ∧ s' = { new with n := 1 }) ∧ (n = 1 → p = (1, 2)) ∧
        (2 ≤ n + 1 → At (n + 1) s') ∧
        (2 ≤ n → (p.1 : ℚ) = gamRho n * gamRho (n - 1) * gamA n ∧ (p.2 : ℚ) = gamRho n * gamB n) by
      obtain ⟨p, s', k1, k2, k3, k4, k5⟩ := H
      refine ⟨l ++ [p], s', by simp [h1], Outs.snoc h2 k1, fun h => by omega, fun h => (k2 (by omega)).2, k4, fun i hi => ?_⟩
      rw [List.length_append, List.length_singleton, h1] at hi
      rcases Nat.lt_succ_iff_lt_or_eq.mp hi with hi' | rfl
      · rw [List.getElem_append_left (by omega)]
        exact h6 i (by omega)
      · have e : (l ++ [p])[i]'(by simp; omega) = p := by
          rw [List.getElem_append_right (by omega)]; simp
        rw [e]
        exact ⟨fun h => (k2 h).1, k3, k5⟩
    rcases n with _ | _ | n
    · rw [h3 rfl]
      exact ⟨(1, 0), { new with n := 1 }, rfl, fun _ => ⟨rfl, rfl⟩, fun h => by omega, fun h => by omega, fun h => by omega⟩
    · rw [h4 rfl]
      refine ⟨(1, 2), { new with n := 2 }, rfl, fun h => by omega, fun _ => rfl, fun _ => ?_, fun h => by omega⟩
      unfold At new
      decide +kernel
    · obtain ⟨p, s', k1, k2, k3, k4⟩ := next_at n s (h5 (by omega))
      exact ⟨p, s', k1, fun h => by omega, fun h => by omega, fun _ => k2, fun _ => ⟨k3, k4⟩⟩

/-- The two descriptions of `q_n` in the comments of the source agree: the sums `Σ_k C(n,k)²·k!` satisfy the recurrence
which the code uses, with the initial values `1` and `2`. -/
theorem gamma_q_recurrence : gamQ 0 = 1 ∧ gamQ 1 = 2 ∧
    ∀ n, (gamQ (n + 2) : ℤ) = 2 * (n + 2) * gamQ (n + 1) - (n + 1) ^ 2 * gamQ n :=
  ⟨by decide, by decide, gamQ_rec⟩

/-- the first items -/
example : ∃ s, Outs Call new [(1, 0), (1, 2), (-1, 4), (-5, 16), (36, 59), (-15740, 404)] s :=
  ⟨_, .snoc (.snoc (.snoc (.snoc (.snoc (.snoc (.nil _) (s'' := ⟨1, 2, 1, -1, 1⟩) (by unfold Call; decide +kernel))
    (s'' := ⟨2, 2, 1, -1, 1⟩) (by unfold Call; decide +kernel)) (s'' := ⟨3, 7, 2, -1, 1⟩) (by unfold Call; decide +kernel))
    (s'' := ⟨4, 34, 7, -5 / 3, 3⟩) (by unfold Call; decide +kernel)) (s'' := ⟨5, 209, 34, 2, 10⟩) (by unfold Call; decide +kernel))
    (s'' := ⟨6, 1546, 209, 787 / 5, 20⟩) (by unfold Call; decide +kernel)⟩

end GammaCoeffs
end NumIrr
