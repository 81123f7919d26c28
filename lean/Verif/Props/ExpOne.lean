/-
C96, the exponent 1: the pairs of `exp(1)` simplify to the coefficients of `e`.
-/
import Verif.Lemmas.ExpOne
import Verif.Props.ExpNeg

namespace NumIrr

open Block

namespace GIter

/-- the states of `simplify` on the pairs of `exp(1)` after `j` coefficients -/
private def OneInv (j pos : ℕ) (m : Block) : Prop :=
  ∃ k : ℕ, pos = k + 2 ∧ 10 ≤ k ∧ 10 ≤ j ∧ (∃ l : ℤ, 0 < l ∧
    l * m.pm1 = eV (expS 1 (k + 1)) (k + 1).factorial j ∧ l * m.pm2 = eV (expS 1 k) k.factorial j ∧
    l * m.qm1 = eV (expS 1 (k + 1)) (k + 1).factorial (j + 1) ∧ l * m.qm2 = eV (expS 1 k) k.factorial (j + 1)) ∧
  (0 ≤ eW (j + 1) (eD k) ∧ eW (j + 1) (eD k) < eW j (eD k)) ∧
  0 ≤ eW (j + 1) (eD (k + 1)) ∧ eW (j + 1) (eD (k + 1)) < eW j (eD (k + 1))

private theorem eD_lt (k : ℕ) : eD (k + 1) < eD k := by
  rw [eD_succ k]
  have : (0 : ℝ) < 1 / (k + 1).factorial := by positivity
  linarith

private theorem sum_next (k : ℕ) : expS 1 (k + 2) = expS 1 (k + 1) * (expG 1 (k + 2)).2 + expS 1 k * (expG 1 (k + 2)).1 ∧
    ((k + 2).factorial : ℤ) = (k + 1).factorial * (expG 1 (k + 2)).2 + k.factorial * (expG 1 (k + 2)).1 := by
  have h1 := gP_rec (expG 1) (k + 1)
  have h2 := gQ_rec (expG 1) (k + 1)
  rw [(exp_gP 1 (k + 2)).1, (exp_gP 1 (k + 1)).1, (exp_gP 1 k).1] at h1
  rw [(exp_gP 1 (k + 2)).2, (exp_gP 1 (k + 1)).2, (exp_gP 1 k).2] at h2
  exact ⟨h1, h2⟩

private theorem oneInv_move (j pos : ℕ) (m m' : Block) (h : OneInv j pos m)
    (hs : Scal m' (m.raw (expG 1 pos).1 (expG 1 pos).2)) : OneInv j (pos + 1) m' := by
  obtain ⟨k, rfl, hk, hj, ⟨l, l0, e1, e2, e3, e4⟩, h1, h2⟩ := h
  obtain ⟨i, rfl⟩ : ∃ i, j = i + 1 := ⟨j - 1, by omega⟩
  refine ⟨k + 1, rfl, by omega, hj, ?_, h2, ?_⟩
  · obtain ⟨l', l0', f1, f2, f3, f4⟩ := hs
    simp only [Block.raw] at f1 f2 f3 f4
    obtain ⟨s1, s2⟩ := sum_next k
    refine ⟨l * l', mul_pos l0 l0', ?_, ?_, ?_, ?_⟩
    · rw [show k + 1 + 1 = k + 2 from rfl, s1, s2, (eV_lin _ _ _ _ _ _ _).1, ← e1, ← e2, mul_assoc, ← f1]; ring
    · rw [mul_assoc, ← f2]; exact e1
    · rw [show k + 1 + 1 = k + 2 from rfl, s1, s2, (eV_lin _ _ _ _ _ _ _).1, ← e3, ← e4, mul_assoc, ← f3]; ring
    · rw [mul_assoc, ← f4]; exact e3
  · obtain ⟨a, b⟩ := eW_mono (eD_pos (k + 1 + 1)) (eD_lt (k + 1)) h2.1 h2.2
    exact ⟨a.le, b⟩

/-- bounds of a quotient of non-negative numbers -/
private theorem tdiv_floor {p q i : ℤ} (hp : 0 ≤ p) (hq : 0 < q) (h : p.tdiv q = i) : i * q ≤ p ∧ p < (i + 1) * q := by
  rw [Int.tdiv_eq_ediv_of_nonneg hp] at h
  have h1 := Int.mul_ediv_add_emod p q
  have h2 := Int.emod_nonneg p hq.ne'
  have h3 := Int.emod_lt_of_pos p hq
  rw [h] at h1
  constructor <;> nlinarith

private theorem scaled {n : ℕ} {i l p q V V' : ℤ} {w w' : ℝ} (l0 : 0 < l) (e1 : l * p = V) (e2 : l * q = V')
    (f1 : (V : ℝ) = n.factorial * w) (f2 : (V' : ℝ) = n.factorial * w') (h0 : 0 ≤ w') (h1 : w' < w) (hq : q ≠ 0)
    (ht : p.tdiv q = i) : 1 ≤ i ∧ i * w' ≤ w ∧ w < (i + 1) * w' := by
  have hf : (0 : ℝ) < n.factorial := by positivity
  have V0 : 0 ≤ V' := by
    have : (0 : ℝ) ≤ V' := by rw [f2]; positivity
    exact_mod_cast this
  have V1 : V' < V := by
    have : (V' : ℝ) < V := by rw [f1, f2]; exact mul_lt_mul_of_pos_left h1 hf
    exact_mod_cast this
  have q0 : 0 < q := by
    rcases lt_or_gt_of_ne hq with h | h
    · have := mul_neg_of_pos_of_neg l0 h; omega
    · exact h
  have pq : q < p := by
    rw [← e1, ← e2] at V1
    exact lt_of_mul_lt_mul_left V1 l0.le
  obtain ⟨a, b⟩ := tdiv_floor (q0.trans pq).le q0 ht
  have i1 : 1 ≤ i := by
    by_contra h
    have : (i + 1) * q ≤ 1 * q := mul_le_mul_of_nonneg_right (by omega) q0.le
    omega
  refine ⟨i1, ?_, ?_⟩
  · have : i * V' ≤ V := by rw [← e1, ← e2]; nlinarith
    have h' : (i : ℝ) * V' ≤ V := by exact_mod_cast this
    rw [f1, f2] at h'
    have : (n.factorial : ℝ) * (i * w') ≤ n.factorial * w := by linarith
    exact le_of_mul_le_mul_left this hf
  · have : V < (i + 1) * V' := by rw [← e1, ← e2]; nlinarith
    have h' : (V : ℝ) < (i + 1) * V' := by exact_mod_cast this
    rw [f1, f2] at h'
    have : (n.factorial : ℝ) * w < n.factorial * ((i + 1) * w') := by linarith
    exact lt_of_mul_lt_mul_left this hf.le

/-- enough pairs have been read at an odd position -/
private theorem enough {j k : ℕ} (hk : 10 ≤ k) (hj : 10 ≤ j) (hodd : j % 2 = 1) (h : 0 ≤ eW (j + 1) (eD k)) :
    eC (j + 2) + 2 ≤ ((k + 1 : ℕ) : ℤ) := by
  by_cases h3 : j % 3 = 0
  · obtain ⟨m, hm⟩ : ∃ m, j + 3 = 3 * m := ⟨(j + 3) / 3, by omega⟩
    have hm6 : 6 ≤ m := by omega
    have hc : eC (j + 2) = 2 * m := by
      unfold eC
      rw [if_neg (by omega), if_pos (by omega), show (j + 2 + 1) / 3 = m by omega]
    rw [hc]
    have hodd' : Even (j + 1) := by rw [Nat.even_iff]; omega
    have hg := eQ_growth m hm6
    rw [show 3 * m - 2 = j + 1 by omega] at hg
    have hdet := eErr_eQ (j + 1)
    have p1 := (eQ_nonneg j).2
    have p2 := (eQ_nonneg (j + 1)).2
    have hle : eQ (j + 1) ≤ eQ (j + 1 + 1) := by
      have := eC_pos j
      have := (eQ_nonneg j).1
      simp only [eQ]
      nlinarith
    unfold eW at h
    rw [hodd'.neg_one_pow, one_mul] at h
    have p1' : (0 : ℝ) ≤ eQ (j + 1) := by exact_mod_cast p1
    have p2' : (0 : ℝ) ≤ eQ (j + 1 + 1) := by exact_mod_cast p2
    have hle' : (eQ (j + 1) : ℝ) ≤ eQ (j + 1 + 1) := by exact_mod_cast hle
    have E2 := eErr_pos (j + 1 + 1)
    have a1 : eD k * eQ (j + 1) ^ 2 ≤ 1 := by
      have b1 : eD k * eQ (j + 1) * eQ (j + 1 + 1) ≤ eErr (j + 1) * eQ (j + 1 + 1) :=
        mul_le_mul_of_nonneg_right (by linarith) p2'
      have b2 : eD k * eQ (j + 1) * eQ (j + 1) ≤ eD k * eQ (j + 1) * eQ (j + 1 + 1) :=
        mul_le_mul_of_nonneg_left hle' (mul_nonneg (eD_pos k).le p1')
      have b3 := mul_nonneg E2.le p1'
      nlinarith
    have a2 := eD_gt k
    have hg' : ((2 * m + 1).factorial : ℝ) ≤ (eQ (j + 1) : ℝ) ^ 2 := by exact_mod_cast hg
    have a3 : ((2 * m + 1).factorial : ℝ) < (k + 1).factorial := by
      have c1 : eD k * (2 * m + 1).factorial ≤ 1 :=
        (mul_le_mul_of_nonneg_left hg' (eD_pos k).le).trans a1
      by_contra hcon
      push Not at hcon
      have : ((k + 1).factorial : ℝ) * eD k ≤ (2 * m + 1).factorial * eD k :=
        mul_le_mul_of_nonneg_right hcon (eD_pos k).le
      linarith
    have a4 : (2 * m + 1).factorial < (k + 1).factorial := by exact_mod_cast a3
    have a5 : 2 * m + 1 < k + 1 := by
      by_contra hcon
      push Not at hcon
      have := Nat.factorial_le hcon
      omega
    omega
  · have hc : eC (j + 2) = 1 := by
      unfold eC
      rw [if_neg (by omega), if_neg (by omega)]
    rw [hc]; omega

private theorem oneInv_out (j pos : ℕ) (m : Block) (i r1 r2 : ℤ) (h : OneInv j pos m)
    (hc : m.checkInteger = some (i, r1, r2)) : i = ⌊tails (Real.exp 1) j⌋ ∧ OneInv (j + 1) pos (m.after r1 r2) := by
  obtain ⟨q1, q2, t1, t2, -, -, f1, f2⟩ := checkInteger_spec hc
  obtain ⟨k, rfl, hk, hj, ⟨l, l0, e1, e2, e3, e4⟩, h1, h2⟩ := h
  obtain ⟨v1, v2⟩ := eV_sum (k + 1) j
  obtain ⟨v3, v4⟩ := eV_sum k j
  obtain ⟨i1, a1, a2⟩ := scaled l0 e1 e3 v1 v2 h2.1 h2.2 q1 t1
  obtain ⟨-, b1, b2⟩ := scaled l0 e2 e4 v3 v4 h1.1 h1.2 q2 t2
  have hi : i = eC j := by
    refine eCell (n := k + 1) (eD_pos (k + 1)) ?_ a1 a2 b1 b2 i1 (by omega) fun ho => enough hk hj ho h1.1
    exact eD_ratio k
  refine ⟨by rw [e_floor]; exact hi, k, rfl, hk, by omega, ⟨l, l0, ?_, ?_, ?_, ?_⟩, ⟨?_, ?_⟩, ?_, ?_⟩
  · exact e3
  · exact e4
  · simp only [Block.after, eV]; rw [← e1, ← e3, ← hi, f1]; ring
  · simp only [Block.after, eV]; rw [← e2, ← e4, ← hi, f2]; ring
  all_goals
    first
    | (have := eW_rec j (eD k); rw [← hi] at this; linarith)
    | (have := eW_rec j (eD (k + 1)); rw [← hi] at this; linarith)

/-- the state after ten coefficients -/
private def oneState : GIter := ⟨⟨41880, 3765, 37568, 3464⟩, expSrc 1, 12⟩

private theorem simp_ten : Outs SimpCall (GIter.new (expSrc 1)) ((List.range 10).map eC) oneState := by
  have step : ∀ {b b' : Block} {p p' : ℕ} {i : ℤ}, GIter.simpNext 9 ⟨b, expSrc 1, p⟩ = some (some i, ⟨b', expSrc 1, p'⟩) →
      SimpCall ⟨b, expSrc 1, p⟩ i ⟨b', expSrc 1, p'⟩ := fun h => ⟨9, fun f hf => GIter.simpNext_mono h hf⟩
  have h0 : Outs SimpCall (GIter.new (expSrc 1)) [] ⟨⟨1, 0, 0, 1⟩, expSrc 1, 0⟩ := Outs.nil _
  have h1 := Outs.snoc h0 (step (b' := ⟨2, 1, 1, 0⟩) (p' := 3) (i := 2) rfl)
  have h2 := Outs.snoc h1 (step (b' := ⟨17, 4, 7, 2⟩) (p' := 5) (i := 1) rfl)
  have h3 := Outs.snoc h2 (step (b' := ⟨7, 2, 3, 0⟩) (p' := 5) (i := 2) rfl)
  have h4 := Outs.snoc h3 (step (b' := ⟨111, 18, 92, 16⟩) (p' := 7) (i := 1) rfl)
  have h5 := Outs.snoc h4 (step (b' := ⟨92, 16, 19, 2⟩) (p' := 7) (i := 1) rfl)
  have h6 := Outs.snoc h5 (step (b' := ⟨140, 19, 80, 16⟩) (p' := 8) (i := 4) rfl)
  have h7 := Outs.snoc h6 (step (b' := ⟨80, 16, 60, 3⟩) (p' := 8) (i := 1) rfl)
  have h8 := Outs.snoc h7 (step (b' := ⟨519, 60, 89, 20⟩) (p' := 9) (i := 1) rfl)
  have h9 := Outs.snoc h8 (step (b' := ⟨7229, 730, 3765, 330⟩) (p' := 11) (i := 6) rfl)
  exact Outs.snoc h9 (step (b' := ⟨41880, 3765, 37568, 3464⟩) (p' := 12) (i := 1) rfl)

private theorem oneInv_ten : OneInv 10 12 oneState.block := by
  have hl : ∃ l : ℤ, 0 < l ∧ l * oneState.block.pm1 = eV (expS 1 11) (Nat.factorial 11) 10 ∧
      l * oneState.block.pm2 = eV (expS 1 10) (Nat.factorial 10) 10 ∧
      l * oneState.block.qm1 = eV (expS 1 11) (Nat.factorial 11) 11 ∧
      l * oneState.block.qm2 = eV (expS 1 10) (Nat.factorial 10) 11 := by
    refine ⟨1, one_pos, ?_, ?_, ?_, ?_⟩ <;> decide +kernel
  obtain ⟨l, l0, a1, a2, a3, a4⟩ := hl
  have pos : ∀ (n : ℕ) (p q : ℤ), l * p = eV (expS 1 n) n.factorial 10 → l * q = eV (expS 1 n) n.factorial 11 →
      0 ≤ q → q < p → 0 ≤ eW 11 (eD n) ∧ eW 11 (eD n) < eW 10 (eD n) := by
    intro n p q h1 h2 h3 h4
    obtain ⟨v1, v2⟩ := eV_sum n 10
    have hf : (0 : ℝ) < n.factorial := by positivity
    have l0' : (0 : ℝ) < l := by exact_mod_cast l0
    rw [← h1] at v1
    rw [← h2] at v2
    push_cast at v1 v2
    have h3' : (0 : ℝ) ≤ q := by exact_mod_cast h3
    have h4' : (q : ℝ) < p := by exact_mod_cast h4
    constructor
    · have : 0 ≤ n.factorial * eW 11 (eD n) := by rw [← v2]; positivity
      exact (mul_nonneg_iff_of_pos_left hf).mp this
    · have : n.factorial * eW 11 (eD n) < n.factorial * eW 10 (eD n) := by
        rw [← v2, ← v1]; exact mul_lt_mul_of_pos_left h4' l0'
      exact lt_of_mul_lt_mul_left this hf.le
  exact ⟨10, rfl, le_rfl, le_rfl, ⟨l, l0, a1, a2, a3, a4⟩, pos 10 _ _ a2 a4 (by decide) (by decide),
    pos 11 _ _ a1 a3 (by decide) (by decide)⟩

/-- the invariant determines a number -/
private theorem OneInv.lin {j pos : ℕ} {m : Block} (h : OneInv j pos m) :
    LinAt (expG 1) (Real.exp (1 : ℤ)) (tails (Real.exp (1 : ℤ)) j) pos m := by
  obtain ⟨k, rfl, -, -, ⟨l, l0, e1, e2, e3, e4⟩, -, -⟩ := h
  have hz : Real.exp ((1 : ℤ) : ℝ) = Real.exp 1 := by norm_num
  rw [hz]
  have hlin : ∀ (P Q : ℤ) (i : ℕ), eV P Q i = eV 1 0 i * P + eV 0 1 i * Q := by
    intro P Q i
    have := (eV_lin 1 0 0 1 Q P i).1
    simp only [one_mul, zero_mul, add_zero, zero_add] at this
    rw [this]
  have hreal : ∀ i, (eV 1 0 i : ℝ) * Real.exp 1 + eV 0 1 i = eErr i ∧
      (eV 1 0 (i + 1) : ℝ) * Real.exp 1 + eV 0 1 (i + 1) = eErr (i + 1) := by
    intro i
    induction i with
    | zero =>
      have h1 := eErr_J 0
      simp only [Nat.mul_zero, Nat.zero_add, Nat.factorial_zero, Nat.cast_one, div_one, eInt_one] at h1
      simp only [eV, Nat.zero_add, h1]
      rw [show eErr 0 = Real.exp 1 from rfl]
      simp
    | succ i ih =>
      refine ⟨ih.2, ?_⟩
      have := eErr_rec i
      simp only [eV]
      push_cast
      linear_combination ih.1 - eC i * ih.2 + this
  refine ⟨⟨eV 1 0 j, eV 0 1 j, eV 1 0 (j + 1), eV 0 1 (j + 1)⟩, ⟨l, l0, ?_⟩, ?_, ?_⟩
  · have g1 := exp_gP 1 (k + 1)
    have g2 := exp_gP 1 k
    have r1 : (rawN Block.identity (expG 1) (k + 2)).pm1 = expS 1 (k + 1) := g1.1
    have r2 : (rawN Block.identity (expG 1) (k + 2)).qm1 = (k + 1).factorial := g1.2
    have r3 : (rawN Block.identity (expG 1) (k + 2)).pm2 = expS 1 k := g2.1
    have r4 : (rawN Block.identity (expG 1) (k + 2)).qm2 = k.factorial := g2.2
    simp only [Block.lmul, r1, r2, r3, r4]
    rw [e1, e2, e3, e4]
    exact ⟨(hlin _ _ _).symm, (hlin _ _ _).symm, (hlin _ _ _).symm, (hlin _ _ _).symm⟩
  · simp only [Block.den]
    rw [(hreal j).2]; exact (eErr_pos _).ne'
  · simp only [Block.den, Block.num]
    rw [(hreal j).2, (hreal j).1, e_tails, div_mul_cancel₀ _ (eErr_pos _).ne']

/-- the items but the last -/
private theorem outs_front {σ β : Type} {step : σ → β → σ → Prop} {s s' : σ} {l : List β} {i : β}
    (h : Outs step s (l ++ [i]) s') : ∃ t, Outs step s l t := by
  generalize hl : l ++ [i] = l' at h
  cases h with
  | nil => simp at hl
  | snoc h _ =>
    obtain ⟨rfl, -⟩ := List.append_inj' hl rfl
    exact ⟨_, h⟩

/-- **C96** for the exponent 1: `exp(1).simplify()` yields for ever the coefficients of `e`, the same as `E::cfrac` (C46).
The crate's unit test compares a few. What is missing for C96: it is false for the exponents 2 and 3 and for the decimal
digits of `exp(1)` (`exp_pos_refuted`). -/
theorem exp_one_simplify_partial (n : ℕ) :
    ∃ s, Outs SimpCall (GIter.new (expSrc 1)) ((List.range n).map fun k => ⌊tails (Real.exp 1) k⌋) s := by
  suffices H : ∀ n, 10 ≤ n → ∃ s, Outs SimpCall (GIter.new (expSrc 1)) ((List.range n).map eC) s ∧
      s.src = (fun k => some (expG 1 k)) ∧ OneInv n s.pos s.block by
    have hE : (fun k => ⌊tails (Real.exp 1) k⌋) = eC := funext e_floor
    rw [hE]
    have down : ∀ d n, (∃ s, Outs SimpCall (GIter.new (expSrc 1)) ((List.range (n + d)).map eC) s) →
        ∃ s, Outs SimpCall (GIter.new (expSrc 1)) ((List.range n).map eC) s := by
      intro d
      induction d with
      | zero => exact fun n h => h
      | succ d ih =>
        intro n h
        refine ih n ?_
        obtain ⟨s, h⟩ := h
        rw [← Nat.add_assoc, List.range_succ, List.map_append, List.map_singleton] at h
        exact outs_front h
    obtain ⟨s, hs, -⟩ := H (n + 10) (by omega)
    exact down 10 n ⟨s, hs⟩
  intro n hn
  induction n, hn using Nat.le_induction with
  | base => exact ⟨_, simp_ten, expSrc_eq 1, oneInv_ten⟩
  | succ n hn ih =>
    obtain ⟨s, hs, h1, h3⟩ := ih
    have hirr : Irrational (Real.exp (1 : ℤ)) := by
      have := ECoeffs.e_irrational
      rwa [show Real.exp ((1 : ℤ) : ℝ) = Real.exp 1 by norm_num]
    obtain ⟨j, hj⟩ := LinAt.eventually (exp_cto 1) (exp_Q_pos 1) (pos := s.pos) (ms := s.blk (dropG (expG 1) s.pos)) h3.lin
      (fun j => gmove_scal _ _ _) (tails_irrational hirr n) (tails_pos hirr (Real.exp_pos _) n)
    obtain ⟨fuel, i, s', hcall⟩ := GIter.simpNext_returns (s := s) (g := dropG (expG 1) s.pos) (fun j => by rw [h1]; rfl) j hj
    obtain ⟨s0, r1, r2, ⟨e1, e3⟩, h5, rfl⟩ := GIter.simpNext_inv
      (I := fun s => s.src = (fun k => some (expG 1 k)) ∧ OneInv n s.pos s.block)
      (fun s a b hs hv => by
        obtain ⟨f1, f3⟩ := hs
        rw [f1] at hv
        simp only [Option.some.injEq] at hv
        refine ⟨f1, oneInv_move n _ _ _ f3 ?_⟩
        rw [hv]; exact gmove_scal _ _ _)
      fuel s s' i ⟨h1, h3⟩ hcall
    obtain ⟨hi, hr⟩ := oneInv_out n _ _ i r1 r2 e3 h5
    refine ⟨{ s0 with block := s0.block.after r1 r2 }, ?_, e1, hr⟩
    rw [List.range_succ, List.map_append, List.map_singleton, ← e_floor n, ← hi]
    exact Outs.snoc hs ⟨fuel, fun f hf => GIter.simpNext_mono hcall hf⟩

/-- Corollary: over the unbounded integers the two ways of the crate to expand `e` agree at every position: the `n`-th
coefficient of `exp(1).simplify()` is the `n`-th coefficient of `E::cfrac`. -/
theorem exp_one_agrees_partial (n : ℕ) :
    ∃ l s, Outs SimpCall (GIter.new (expSrc 1)) l s ∧ l.map some = (List.range n).map (stream ECoeffs.next ECoeffs.new) := by
  obtain ⟨s, h⟩ := exp_one_simplify_partial n
  refine ⟨_, s, h, ?_⟩
  rw [List.map_map]
  exact List.map_congr_left fun k _ => (ECoeffs.e_regular k).symm

/-- a case: the first coefficients -/
example : (List.range 12).map eC = [2, 1, 2, 1, 1, 4, 1, 1, 6, 1, 1, 8] := by decide +kernel

end GIter
end NumIrr
