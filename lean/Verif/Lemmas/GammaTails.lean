/-
The tails of the continued fraction of Euler's constant.
-/
import Verif.Props.GammaFrac
import Verif.Props.GConvergents
import Verif.Lemmas.GammaLimit
import Verif.Model.FixedGen
import Mathlib.Analysis.Complex.ExponentialBounds

namespace NumIrr

open Filter Topology

namespace GammaCoeffs

theorem stream_at (k n : ℕ) (s : GammaCoeffs) (h : At (n + 2) s) : ∃ p : ℤ × ℤ, streamR next s k = .ok (some p) ∧
    (p.1 : ℚ) = gamRho (n + k + 2) * gamRho (n + k + 1) * gamA (n + k + 2) ∧ (p.2 : ℚ) = gamRho (n + k + 2) * gamB (n + k + 2) := by
  induction k generalizing n s with
  | zero =>
    obtain ⟨p, s', h1, -, h3, h4⟩ := next_at n s h
    unfold Call at h1
    exact ⟨p, by rw [streamR, h1]; rfl, h3, h4⟩
  | succ k ih =>
    obtain ⟨p, s', h1, h2, -, -⟩ := next_at n s h
    unfold Call at h1
    obtain ⟨p', e1, e2, e3⟩ := ih (n + 1) s' h2
    rw [show n + 1 + k = n + (k + 1) by omega] at e2 e3
    exact ⟨p', by rw [streamR, h1]; exact e1, e2, e3⟩

theorem stream_isGam {g : ℕ → ℤ × ℤ} (hg : ∀ k, streamR next new k = .ok (some (g k))) : IsGam g := by
  refine ⟨?_, ?_, fun n => ?_⟩
  · have h := hg 0
    have e : streamR next new 0 = .ok (some (1, 0)) := rfl
    rw [e] at h
    injection h with h; injection h with h; exact h.symm
  · have h := hg 1
    have e : streamR next new 1 = .ok (some (1, 2)) := rfl
    rw [e] at h
    injection h with h; injection h with h; exact h.symm
  · have h := hg (n + 2)
    have e : streamR next new (n + 2) = streamR next { new with n := 2 } n := rfl
    obtain ⟨p, e1, e2, e3⟩ := stream_at n 0 { new with n := 2 } (by unfold At new; decide +kernel)
    rw [e, e1] at h
    injection h with h; injection h with h
    rw [← h]
    rw [Nat.zero_add] at e2 e3
    exact ⟨e2, e3⟩

theorem stream_exists : ∃ g : ℕ → ℤ × ℤ, ∀ k, streamR next new k = .ok (some (g k)) := by
  have : ∀ k, ∃ p : ℤ × ℤ, streamR next new k = .ok (some p) := by
    intro k
    rcases k with _ | _ | k
    · exact ⟨(1, 0), rfl⟩
    · exact ⟨(1, 2), rfl⟩
    · obtain ⟨p, e, -⟩ := stream_at k 0 { new with n := 2 } (by unfold At new; decide +kernel)
      exact ⟨p, e⟩
  choose g hg using this
  exact ⟨g, hg⟩

end GammaCoeffs

/-! ### The convergents decrease -/

/-- the remainders `p_n - γ·q_n` -/
noncomputable def gamE (n : ℕ) : ℝ := gamP n - Real.eulerMascheroniConstant * gamQ n

theorem gam_conv_lt (n : ℕ) : gamP (n + 4) / gamQ (n + 4) < gamP (n + 3) / gamQ (n + 3) := by
  have q3 : (0 : ℚ) < gamQ (n + 3) := by exact_mod_cast gamQ_pos _
  have q4 : (0 : ℚ) < gamQ (n + 4) := by exact_mod_cast gamQ_pos _
  rw [div_lt_div_iff₀ q4 q3]
  have := gam_casoratian (n + 3)
  have := gamS_pos n
  rw [show n + 3 + 1 = n + 4 from rfl] at *
  linarith

theorem gamma_lt (n : ℕ) : Real.eulerMascheroniConstant < ((gamP (n + 3) / gamQ (n + 3) : ℚ) : ℝ) := by
  have anti : StrictAnti fun m => ((gamP (m + 3) / gamQ (m + 3) : ℚ) : ℝ) :=
    strictAnti_nat_of_succ_lt fun m => by exact_mod_cast gam_conv_lt m
  have lim := gamma_tendsto.comp (tendsto_add_atTop_nat 3)
  exact (anti.antitone.le_of_tendsto lim (n + 1)).trans_lt (anti (Nat.lt_succ_self n))

theorem gamE_pos (n : ℕ) : 0 < gamE (n + 3) := by
  have h := gamma_lt n
  have q : (0 : ℝ) < gamQ (n + 3) := by exact_mod_cast gamQ_pos _
  push_cast at h
  rw [lt_div_iff₀ q] at h
  unfold gamE
  linarith

/-- `H_n` by recursion -/
def hrec : ℕ → ℚ
  | 0 => 0
  | n + 1 => hrec n + 1 / (n + 1)

theorem hrec_eq (n : ℕ) : hrec n = harmonic n := by
  induction n with
  | zero => rfl
  | succ n ih => rw [hrec, ih, harmonic_succ]; push_cast; ring

theorem gamma_gt : (4 : ℝ) / 7 < Real.eulerMascheroniConstant := by
  have h := Real.eulerMascheroniSeq_lt_eulerMascheroniConstant 127
  refine lt_trans ?_ h
  unfold Real.eulerMascheroniSeq
  have e : (5.424 : ℚ) ≤ harmonic 127 := by rw [← hrec_eq]; decide +kernel
  have e' : (5.424 : ℝ) ≤ (harmonic 127 : ℝ) := by
    have : ((5.424 : ℚ) : ℝ) ≤ (harmonic 127 : ℝ) := by exact_mod_cast e
    norm_num at this ⊢
  have l : Real.log (((127 : ℕ) : ℝ) + 1) = 7 * Real.log 2 := by
    rw [show (((127 : ℕ) : ℝ) + 1) = 2 ^ 7 by norm_num, Real.log_pow]; norm_num
  rw [l]
  have := Real.log_two_lt_d9
  norm_num at this ⊢
  linarith

/-! ### The tails are defined -/

/-- the sequence from the `k`-th pair on -/
def tlG (k : ℕ) (g : ℕ → ℤ × ℤ) : ℕ → ℤ × ℤ := fun i => g (k + i)

theorem shiftG_tlG (k : ℕ) (g : ℕ → ℤ × ℤ) : shiftG (tlG k g) = tlG (k + 1) g := by
  funext i; unfold shiftG tlG; congr 1; omega

theorem nest_tl {k n : ℕ} {g : ℕ → ℤ × ℤ} {t : ℚ} (h : nest (tlG (k + 1) g) n = some t) (h0 : t ≠ 0) :
    nest (tlG k g) (n + 1) = some ((g k).2 + (g (k + 1)).1 / t) := by
  unfold nest
  rw [shiftG_tlG, h]
  simp only [if_neg h0]
  rfl

/-- the limit of the `k`-th tail (`k ≥ 1`, counted from the pair number `k + 1`) -/
noncomputable def gamU (k : ℕ) : ℝ := -((gamRho (k + 2) : ℝ) * gamA (k + 2) * gamE k / gamE (k + 1))

theorem gamE_frac (n : ℕ) : gamE (n + 2) = gamB (n + 2) * gamE (n + 1) + gamA (n + 2) * gamE n := by
  unfold gamE
  have p : (gamP (n + 2) : ℝ) = gamB (n + 2) * gamP (n + 1) + gamA (n + 2) * gamP n := by exact_mod_cast gamP_frac n
  have q : (gamQ (n + 2) : ℝ) = gamB (n + 2) * gamQ (n + 1) + gamA (n + 2) * gamQ n := by exact_mod_cast gamQ_frac n
  rw [p, q]; ring

theorem gamRho_pos (n : ℕ) : 0 < gamRho n := by
  unfold gamRho
  split
  · norm_num
  split
  · norm_num
  split
  · norm_num
  · rename_i h1 h2 h3
    have h : 5 ≤ n := by omega
    have c : (5 : ℚ) ≤ n := by exact_mod_cast h
    have s := gamS_pos (n - 5)
    rw [show n - 5 + 4 = n - 1 by omega] at s
    have : (0 : ℚ) < n - 1 := by linarith
    positivity

theorem gamA_neg (n : ℕ) : gamA (n + 5) < 0 := by
  unfold gamA
  have s1 := gamS_pos n
  have s2 := gamS_pos (n + 1)
  rw [show n + 5 - 1 = n + 4 by omega, neg_div, neg_lt_zero]
  exact div_pos s2 s1

theorem gamU_step (k : ℕ) (h1 : gamE (k + 1) ≠ 0) (h2 : gamE (k + 2) ≠ 0) {g : ℕ → ℤ × ℤ} (h : IsGam g)
    (ha : gamA (k + 3) ≠ 0) : ((g (k + 2)).2 : ℝ) + (g (k + 3)).1 / gamU (k + 1) = gamU k ∧
      ((g (k + 2)).2 : ℝ) = gamU k + gamRho (k + 2) * (gamE (k + 2) / gamE (k + 1)) := by
  obtain ⟨-, -, h3⟩ := h
  have b : ((g (k + 2)).2 : ℝ) = gamRho (k + 2) * gamB (k + 2) := by exact_mod_cast (h3 k).2
  have a : ((g (k + 3)).1 : ℝ) = gamRho (k + 3) * gamRho (k + 2) * gamA (k + 3) := by exact_mod_cast (h3 (k + 1)).1
  have r3 : (gamRho (k + 3) : ℝ) ≠ 0 := by exact_mod_cast gamRho_ne _
  have ha' : (gamA (k + 3) : ℝ) ≠ 0 := by exact_mod_cast ha
  have e := gamE_frac k
  have B : ((g (k + 2)).2 : ℝ) = gamU k + gamRho (k + 2) * (gamE (k + 2) / gamE (k + 1)) := by
    rw [b, e]; unfold gamU; field_simp; ring
  refine ⟨?_, B⟩
  have A : ((g (k + 3)).1 : ℝ) / gamU (k + 1) = -(gamRho (k + 2) * (gamE (k + 2) / gamE (k + 1))) := by
    rw [a]
    unfold gamU
    rw [show k + 1 + 2 = k + 3 from rfl, show k + 1 + 1 = k + 2 from rfl]
    field_simp
  rw [B, A]; ring

theorem gamU_pos (m : ℕ) : 0 < gamU (m + 3) := by
  unfold gamU
  have r : (0 : ℝ) < gamRho (m + 3 + 2) := by exact_mod_cast gamRho_pos _
  have a : (gamA (m + 3 + 2) : ℝ) < 0 := by exact_mod_cast gamA_neg m
  have e1 := gamE_pos m
  have e2 := gamE_pos (m + 1)
  rw [neg_pos]
  refine div_neg_of_neg_of_pos (mul_neg_of_neg_of_pos (mul_neg_of_pos_of_neg r a) e1) e2

theorem tail_ge {g : ℕ → ℤ × ℤ} (h : IsGam g) (n m : ℕ) :
    ∃ t : ℚ, nest (tlG (m + 5) g) n = some t ∧ gamU (m + 3) ≤ t := by
  induction n generalizing m with
  | zero =>
    refine ⟨_, rfl, ?_⟩
    have := (gamU_step (m + 3) (gamE_pos (m + 1)).ne' (gamE_pos (m + 2)).ne' h (gamA_neg (m + 1)).ne).2
    rw [show m + 3 + 2 = m + 5 from rfl] at this
    have r : (0 : ℝ) < gamRho (m + 5) := by exact_mod_cast gamRho_pos _
    have e1 := gamE_pos (m + 1)
    have e2 := gamE_pos (m + 2)
    have : 0 < gamRho (m + 5) * (gamE (m + 5) / gamE (m + 3 + 1)) := mul_pos r (div_pos e2 e1)
    unfold tlG
    push_cast
    rw [Nat.add_zero]
    linarith
  | succ n ih =>
    obtain ⟨t, h1, h2⟩ := ih (m + 1)
    have u0 := gamU_pos (m + 1)
    have t0 : (0 : ℝ) < t := u0.trans_le h2
    have t0' : t ≠ 0 := by rintro rfl; simp at t0
    refine ⟨_, nest_tl h1 t0', ?_⟩
    have e := (gamU_step (m + 3) (gamE_pos (m + 1)).ne' (gamE_pos (m + 2)).ne' h (gamA_neg (m + 1)).ne).1
    rw [show m + 3 + 2 = m + 5 from rfl, show m + 3 + 3 = m + 5 + 1 from rfl, show m + 3 + 1 = m + 1 + 3 by omega] at e
    have a : ((g (m + 5 + 1)).1 : ℝ) ≤ 0 := by
      have a1 : ((g (m + 4 + 2)).1 : ℝ) = gamRho (m + 4 + 2) * gamRho (m + 4 + 1) * gamA (m + 4 + 2) := by
        exact_mod_cast (h.2.2 (m + 4)).1
      rw [show m + 5 + 1 = m + 4 + 2 from rfl, a1]
      have r1 : (0 : ℝ) < gamRho (m + 4 + 2) := by exact_mod_cast gamRho_pos _
      have r2 : (0 : ℝ) < gamRho (m + 4 + 1) := by exact_mod_cast gamRho_pos _
      have an : (gamA (m + 4 + 2) : ℝ) < 0 := by exact_mod_cast gamA_neg (m + 1)
      exact (mul_neg_of_pos_of_neg (mul_pos r1 r2) an).le
    rw [← e]
    push_cast
    have : ((g (m + 5 + 1)).1 : ℝ) / gamU (m + 1 + 3) ≤ (g (m + 5 + 1)).1 / t := by
      rw [div_le_div_iff₀ u0 t0]
      exact mul_le_mul_of_nonpos_left h2 a
    linarith

theorem gam_first {g : ℕ → ℤ × ℤ} (h : IsGam g) : g 0 = (1, 0) ∧ g 1 = (1, 2) ∧ g 2 = (-1, 4) ∧ g 3 = (-5, 16) ∧
    (g 4).1 = 36 ∧ (g 4).2 = 59 := by
  obtain ⟨h0, h1, h2⟩ := h
  have i2 := h2 0
  have i3 := h2 1
  have i4 := h2 2
  have e2 : gamRho (0 + 2) * gamRho (0 + 1) * gamA (0 + 2) = -1 ∧ gamRho (0 + 2) * gamB (0 + 2) = 4 := by decide +kernel
  have e3 : gamRho (1 + 2) * gamRho (1 + 1) * gamA (1 + 2) = -5 ∧ gamRho (1 + 2) * gamB (1 + 2) = 16 := by decide +kernel
  have e4 : gamRho (2 + 2) * gamRho (2 + 1) * gamA (2 + 2) = 36 ∧ gamRho (2 + 2) * gamB (2 + 2) = 59 := by decide +kernel
  rw [e2.1, e2.2] at i2
  rw [e3.1, e3.2] at i3
  rw [e4.1, e4.2] at i4
  refine ⟨h0, h1, Prod.ext ?_ ?_, Prod.ext ?_ ?_, ?_, ?_⟩
  · exact_mod_cast i2.1
  · exact_mod_cast i2.2
  · exact_mod_cast i3.1
  · exact_mod_cast i3.2
  · exact_mod_cast i4.1
  · exact_mod_cast i4.2

theorem gamE_two_neg : gamE 2 < 0 := by
  unfold gamE
  have p : gamP 2 = 4 := by decide +kernel
  have q : gamQ 2 = 7 := by decide +kernel
  rw [p, q]
  have := gamma_gt
  push_cast
  linarith

theorem tail4 {g : ℕ → ℤ × ℤ} (h : IsGam g) (n : ℕ) : ∃ t : ℚ, nest (tlG 4 g) n = some t ∧ 0 < t := by
  obtain ⟨-, -, -, -, h1, h2⟩ := gam_first h
  rcases n with _ | n
  · refine ⟨_, rfl, ?_⟩
    unfold tlG
    rw [Nat.add_zero, h2]; norm_num
  · obtain ⟨t, k1, k2⟩ := tail_ge h n 0
    have u0 := gamU_pos 0
    have t0 : (0 : ℝ) < t := u0.trans_le k2
    have t0' : t ≠ 0 := by rintro rfl; simp at t0
    refine ⟨_, nest_tl k1 t0', ?_⟩
    have e := (gamU_step 2 (gamE_pos 0).ne' (gamE_pos 1).ne' h (gamA_neg 0).ne).1
    have u2 : 0 < gamU 2 := by
      unfold gamU
      have r : gamRho (2 + 2) = 10 := by decide +kernel
      have a : gamA (2 + 2) = 6 / 5 := by decide +kernel
      have e1 := gamE_pos 0
      have e2 := gamE_two_neg
      rw [r, a, neg_pos]
      push_cast
      exact div_neg_of_neg_of_pos (by linarith) e1
    have a5 : ((g (4 + 1)).1 : ℝ) ≤ 0 := by
      have a1 : ((g (3 + 2)).1 : ℝ) = gamRho (3 + 2) * gamRho (3 + 1) * gamA (3 + 2) := by exact_mod_cast (h.2.2 3).1
      rw [show 4 + 1 = 3 + 2 from rfl, a1]
      have r1 : (0 : ℝ) < gamRho (3 + 2) := by exact_mod_cast gamRho_pos _
      have r2 : (0 : ℝ) < gamRho (3 + 1) := by exact_mod_cast gamRho_pos _
      have an : (gamA (3 + 2) : ℝ) < 0 := by exact_mod_cast gamA_neg 0
      exact (mul_neg_of_pos_of_neg (mul_pos r1 r2) an).le
    have hr : (0 : ℝ) < (((g 4).2 + (g (4 + 1)).1 / t : ℚ) : ℝ) := by
      push_cast
      have : ((g (4 + 1)).1 : ℝ) / gamU (0 + 3) ≤ (g (4 + 1)).1 / t := by
        rw [div_le_div_iff₀ u0 t0]
        exact mul_le_mul_of_nonpos_left k2 a5
      have e' : ((g 4).2 : ℝ) + (g (4 + 1)).1 / gamU (0 + 3) = gamU 2 := e
      linarith
    exact_mod_cast hr

theorem tail3 {g : ℕ → ℤ × ℤ} (h : IsGam g) (n : ℕ) : ∃ t : ℚ, nest (tlG 3 g) n = some t ∧ 16 ≤ t := by
  obtain ⟨-, -, -, h3, h1, h2⟩ := gam_first h
  rcases n with _ | n
  · refine ⟨_, rfl, ?_⟩
    unfold tlG
    rw [Nat.add_zero, h3]; norm_num
  · obtain ⟨t, k1, k2⟩ := tail4 h n
    refine ⟨_, nest_tl k1 k2.ne', ?_⟩
    rw [h3, show 3 + 1 = 4 from rfl, h1]
    have : (0 : ℚ) < ((36 : ℤ) : ℚ) / t := by positivity
    push_cast at this ⊢
    linarith

theorem tail2 {g : ℕ → ℤ × ℤ} (h : IsGam g) (n : ℕ) : ∃ t : ℚ, nest (tlG 2 g) n = some t ∧ 3 ≤ t := by
  obtain ⟨-, -, h2, h3, -, -⟩ := gam_first h
  rcases n with _ | n
  · refine ⟨_, rfl, ?_⟩
    unfold tlG
    rw [Nat.add_zero, h2]; norm_num
  · obtain ⟨t, k1, k2⟩ := tail3 h n
    have t0 : 0 < t := by linarith
    refine ⟨_, nest_tl k1 t0.ne', ?_⟩
    rw [h2, show 2 + 1 = 3 from rfl, h3]
    have : ((5 : ℤ) : ℚ) / t ≤ 1 := by rw [div_le_one t0]; push_cast; linarith
    push_cast at this ⊢
    rw [neg_div]
    linarith

theorem tail1 {g : ℕ → ℤ × ℤ} (h : IsGam g) (n : ℕ) : ∃ t : ℚ, nest (tlG 1 g) n = some t ∧ 1 ≤ t := by
  obtain ⟨-, h1, h2, -, -, -⟩ := gam_first h
  rcases n with _ | n
  · refine ⟨_, rfl, ?_⟩
    unfold tlG
    rw [Nat.add_zero, h1]; norm_num
  · obtain ⟨t, k1, k2⟩ := tail2 h n
    have t0 : 0 < t := by linarith
    refine ⟨_, nest_tl k1 t0.ne', ?_⟩
    rw [h1, show 1 + 1 = 2 from rfl, h2]
    have : (1 : ℚ) / t ≤ 1 := by rw [div_le_one t0]; linarith
    push_cast
    rw [neg_div]
    linarith

theorem gam_nest {g : ℕ → ℤ × ℤ} (h : IsGam g) (n : ℕ) : nest g n = some (gamP n / gamQ n) := by
  have hs : ∃ v, nest g n = some v := by
    obtain ⟨h0, h1, -, -, -, -⟩ := gam_first h
    rcases n with _ | n
    · exact ⟨_, rfl⟩
    · obtain ⟨t, k1, k2⟩ := tail1 h n
      have t0 : 0 < t := by linarith
      have e : g = tlG 0 g := by funext i; unfold tlG; rw [Nat.zero_add]
      rw [e]
      exact ⟨_, nest_tl k1 t0.ne'⟩
  obtain ⟨v, hv⟩ := hs
  have h0 : (g 0).1 = 1 := by rw [h.1]
  obtain ⟨hq, he⟩ := nest_eq h0 hv
  obtain ⟨c1, c2⟩ := gam_conv h n
  rw [hv]
  congr 1
  rw [he, c1, c2, mul_div_mul_left _ _ (gamR_ne n)]

end NumIrr
