/-
C97: blocks as homographic functions.
-/
import Verif.Lemmas.BlockVal
import Verif.Lemmas.HomoStep
import Verif.Lemmas.GStraddle

namespace NumIrr
namespace Block

/-- the function a block stands for -/
noncomputable def mob (m : Block) (x : ℝ) : ℝ := (m.pm1 * x + m.pm2) / (m.qm1 * x + m.qm2)

/-- `i` is `y` rounded towards zero -/
def IsTrunc (y : ℝ) (i : ℤ) : Prop := (0 ≤ y → ⌊y⌋ = i) ∧ (y ≤ 0 → ⌈y⌉ = i)

/-- **C97** `new`, `identity`, `rmove` and `gmove`: the moves substitute the next quotient of a regular or of a generalized
fraction. -/
theorem block_moves (a b c d : ℤ) (m : Block) (x y : ℝ) (hy : y ≠ 0) :
    (Block.new a b c d).mob x = (a * x + b) / (c * x + d) ∧ identity.mob x = x ∧
    (m.rmove a).mob y = m.mob (a + 1 / y) ∧ (a ≠ 0 → (m.gmove a b).mob y = m.mob ((b + 1 / y) / a)) := by
  refine ⟨rfl, by simp [mob, identity], ?_, ?_⟩
  · simp only [mob, rmove, update]
    push_cast
    rw [show ((m.pm1 : ℝ) * (a + 1 / y) + m.pm2) / (m.qm1 * (a + 1 / y) + m.qm2)
      = (y * (m.pm1 * (a + 1 / y) + m.pm2)) / (y * (m.qm1 * (a + 1 / y) + m.qm2)) by
        rw [mul_div_mul_left _ _ hy]]
    congr 1 <;> field_simp
    · ring
    · ring
  · intro ha
    have ha' : (a : ℝ) ≠ 0 := by exact_mod_cast ha
    obtain ⟨l, l0, hl⟩ := (gmove_scal m a b).num
    have e1 : (m.gmove a b).mob y = (m.raw a b).num y / (m.raw a b).den y := by
      rw [(hl y).1, (hl y).2, mul_div_mul_left _ _ l0.ne']; rfl
    obtain ⟨h1, h2⟩ := raw_num m (a := a) (b := b) (w := (b + 1 / y) / a) (w' := y) hy (by field_simp)
    rw [e1, h1, h2, mul_div_mul_left _ _ (mul_ne_zero ha' hy)]
    rfl

example : (Block.mk 2 1 3 4).rmove 5 = ⟨11, 2, 19, 3⟩ ∧ (Block.mk 2 4 6 8).gmove 3 4 = ⟨10, 1, 24, 3⟩ := by decide +kernel

/-- **C97** `gmove` leaves no factor common to the four entries -/
theorem block_gmove_coprime (m : Block) (a b : ℤ) (k : ℤ)
    (h1 : k ∣ (m.gmove a b).pm1) (h2 : k ∣ (m.gmove a b).pm2) (h3 : k ∣ (m.gmove a b).qm1) (h4 : k ∣ (m.gmove a b).qm2) :
    IsUnit k ∨ m.gmove a b = ⟨0, 0, 0, 0⟩ := by
  unfold gmove at *
  simp only at *
  set p := m.pm1 * b + m.pm2 * a with hp
  set q := m.qm1 * b + m.qm2 * a with hq
  obtain ⟨d1, d2, d3, d4⟩ := igcd_dvd4 p q m.pm1 m.qm1
  have dvd : ∀ e : ℤ, e ∣ p → e ∣ q → e ∣ m.pm1 → e ∣ m.qm1 → e ∣ igcd (igcd (igcd p q) m.pm1) m.qm1 := fun e a b c d =>
    Int.dvd_coe_gcd (Int.dvd_coe_gcd (Int.dvd_coe_gcd a b) c) d
  have g0 : 0 ≤ igcd (igcd (igcd p q) m.pm1) m.qm1 := by unfold igcd; positivity
  generalize igcd (igcd (igcd p q) m.pm1) m.qm1 = g at *
  split at h1
  · rename_i hg
    left
    simp only [if_pos hg, update] at h1 h2 h3 h4
    have hk := dvd (g * k)
      (by have := mul_dvd_mul_left g h1; rwa [Int.mul_tdiv_cancel' d1] at this)
      (by have := mul_dvd_mul_left g h3; rwa [Int.mul_tdiv_cancel' d2] at this)
      (by have := mul_dvd_mul_left g h2; rwa [Int.mul_tdiv_cancel' d3] at this)
      (by have := mul_dvd_mul_left g h4; rwa [Int.mul_tdiv_cancel' d4] at this)
    obtain ⟨e, he⟩ := hk
    have : k * e = 1 := by
      have : g * (k * e) = g * 1 := by rw [← mul_assoc, ← he, mul_one]
      exact mul_left_cancel₀ (by omega) this
    exact IsUnit.of_mul_eq_one e this
  · rename_i hg
    simp only [if_neg hg, update] at h1 h2 h3 h4 ⊢
    have hk := dvd k h1 h3 h2 h4
    rcases (show g = 0 ∨ g = 1 by omega) with rfl | rfl
    · right
      simp only [zero_dvd_iff] at d1 d2 d3 d4
      rw [d1, d2, d3, d4]
    · left; exact isUnit_of_dvd_one hk

example : (Block.mk 0 0 0 0).gmove 1 1 = ⟨0, 0, 0, 0⟩ ∧ (Block.mk 6 0 0 6).gmove 1 1 = ⟨1, 1, 1, 0⟩ := by decide +kernel

/-- **C97** the checked moves: they give the convergent of the unchecked move exactly when all products and sums of the
source can be represented, and a refused move leaves the block as it was. -/
theorem block_checked_moves (fits : ℤ → Bool) (m : Block) (a b : ℤ) :
    (∀ v, m.checkedRmove fits a = some v ↔
      (fits (a * m.pm1) ∧ fits (a * m.pm1 + m.pm2) ∧ fits (a * m.qm1) ∧ fits (a * m.qm1 + m.qm2)) ∧
      m.rmove a = m.update v.1 v.2) ∧
    ((fits (b * m.pm1) ∧ fits (a * m.pm2) ∧ fits (b * m.pm1 + a * m.pm2) ∧ fits (b * m.qm1) ∧ fits (a * m.qm2) ∧
        fits (b * m.qm1 + a * m.qm2)) → ∃ p q m', m.checkedGmove fits a b = (some (p, q), m') ∧ m'.update p q = m.gmove a b) ∧
    (¬ (fits (b * m.pm1) ∧ fits (a * m.pm2) ∧ fits (b * m.pm1 + a * m.pm2) ∧ fits (b * m.qm1) ∧ fits (a * m.qm2) ∧
        fits (b * m.qm1 + a * m.qm2)) → m.checkedGmove fits a b = (none, m)) := by
  refine ⟨fun v => ?_, fun h => ?_, fun h => ?_⟩
  · obtain ⟨p, q⟩ := v
    unfold checkedRmove rmove
    constructor
    · intro h
      split at h
      · split at h
        · rename_i h1 h2
          simp only [Bool.and_eq_true] at h1 h2
          cases h
          exact ⟨⟨h1.1, h1.2, h2.1, h2.2⟩, rfl⟩
        · cases h
      · cases h
    · rintro ⟨⟨h1, h2, h3, h4⟩, h⟩
      simp only [update, Block.mk.injEq] at h
      simp [h1, h3, h.1, h.2.2.1]
      exact ⟨by rw [← h.1]; exact h2, by rw [← h.2.2.1]; exact h4⟩
  · obtain ⟨h1, h2, h3, h4, h5, h6⟩ := h
    unfold checkedGmove gmove
    simp only [h1, h2, h3, h4, h5, h6, Bool.and_self, if_true]
    rw [mul_comm b, mul_comm a m.pm2, mul_comm b, mul_comm a m.qm2]
    split
    · exact ⟨_, _, _, rfl, rfl⟩
    · exact ⟨_, _, _, rfl, rfl⟩
  · unfold checkedGmove
    simp only
    rw [if_neg]
    simp only [Bool.and_eq_true]
    tauto

example : (Block.mk 2 1 3 4).checkedRmove (fun n => decide (n < 20)) 5 = some (11, 19) ∧
    (Block.mk 2 1 3 4).checkedRmove (fun n => decide (n < 19)) 5 = none ∧
    (Block.mk 2 4 6 8).checkedGmove (fun n => decide (n < 49)) 3 4 = (some (10, 24), ⟨1, 4, 3, 8⟩) ∧
    (Block.mk 2 4 6 8).checkedGmove (fun n => decide (n < 48)) 3 4 = (none, ⟨2, 4, 6, 8⟩) := by decide +kernel

theorem isTrunc_iff (y : ℝ) (i : ℤ) : IsTrunc y i ↔ (0 ≤ i ∧ (i : ℝ) ≤ y ∧ y < i + 1) ∨ (i ≤ 0 ∧ (i : ℝ) - 1 < y ∧ y ≤ i) := by
  unfold IsTrunc
  constructor
  · rintro ⟨h1, h2⟩
    rcases le_total 0 y with hy | hy
    · left
      obtain ⟨a, b⟩ := Int.floor_eq_iff.mp (h1 hy)
      refine ⟨?_, a, b⟩
      have : (-1 : ℝ) < i := by linarith
      have : (-1 : ℤ) < i := by exact_mod_cast this
      omega
    · right
      obtain ⟨a, b⟩ := Int.ceil_eq_iff.mp (h2 hy)
      refine ⟨?_, a, b⟩
      have : (i : ℝ) < 1 := by linarith
      have : i < (1 : ℤ) := by exact_mod_cast this
      omega
  · rintro (⟨h0, h1, h2⟩ | ⟨h0, h1, h2⟩)
    · refine ⟨fun _ => Int.floor_eq_iff.mpr ⟨h1, h2⟩, fun hy => ?_⟩
      have h0' : (0 : ℝ) ≤ i := by exact_mod_cast h0
      exact Int.ceil_eq_iff.mpr ⟨by linarith, by linarith⟩
    · refine ⟨fun hy => ?_, fun _ => Int.ceil_eq_iff.mpr ⟨h1, h2⟩⟩
      have h0' : (i : ℝ) ≤ 0 := by exact_mod_cast h0
      exact Int.floor_eq_iff.mpr ⟨by linarith, by linarith⟩

theorem IsTrunc.unique {y : ℝ} {i j : ℤ} (h : IsTrunc y i) (h' : IsTrunc y j) : i = j := by
  rcases le_total 0 y with hy | hy
  · rw [← h.1 hy, h'.1 hy]
  · rw [← h.2 hy, h'.2 hy]

theorem isTrunc_tdiv {p q : ℤ} (hq : q ≠ 0) : IsTrunc ((p : ℝ) / q) (p.tdiv q) := by
  have pos : ∀ p q : ℤ, 0 < q → IsTrunc ((p : ℝ) / q) (p.tdiv q) := by
    intro p q hq
    have hq' : (0 : ℝ) < q := by exact_mod_cast hq
    rw [isTrunc_iff]
    rcases tdiv_bounds hq (rfl : p.tdiv q = p.tdiv q) with ⟨h0, h1, h2⟩ | ⟨h0, h1, h2⟩
    · refine Or.inl ⟨h0, ?_, ?_⟩
      · rw [le_div_iff₀ hq']; exact_mod_cast h1
      · rw [div_lt_iff₀ hq']; exact_mod_cast h2
    · refine Or.inr ⟨h0, ?_, ?_⟩
      · rw [lt_div_iff₀ hq']; exact_mod_cast h2
      · rw [div_le_iff₀ hq']; exact_mod_cast h1
  rcases lt_or_gt_of_ne hq with h | h
  · have := pos (-p) (-q) (by omega)
    rw [Int.neg_tdiv, Int.tdiv_neg, neg_neg] at this
    push_cast at this
    rwa [neg_div_neg_eq] at this
  · exact pos p q h

theorem IsTrunc.between {y z w : ℝ} {i : ℤ} (hy : IsTrunc y i) (hz : IsTrunc z i) (h1 : y ≤ w) (h2 : w ≤ z) : IsTrunc w i := by
  rw [isTrunc_iff] at *
  rcases hy with ⟨a0, a1, a2⟩ | ⟨a0, a1, a2⟩ <;> rcases hz with ⟨b0, b1, b2⟩ | ⟨b0, b1, b2⟩
  · exact Or.inl ⟨a0, by linarith, by linarith⟩
  · exact Or.inl ⟨a0, by linarith, by linarith⟩
  · obtain rfl : i = 0 := by omega
    push_cast at *
    rcases le_total 0 w with hw | hw
    · exact Or.inl ⟨by trivial, hw, by linarith⟩
    · exact Or.inr ⟨by trivial, by linarith, hw⟩
  · exact Or.inr ⟨a0, by linarith, by linarith⟩

theorem checkInteger_iff (m : Block) (i : ℤ) : (∃ r1 r2, m.checkInteger = some (i, r1, r2)) ↔
    m.qm1 ≠ 0 ∧ m.qm2 ≠ 0 ∧ m.pm1.tdiv m.qm1 = i ∧ m.pm2.tdiv m.qm2 = i := by
  constructor
  · rintro ⟨r1, r2, h⟩
    obtain ⟨h1, h2, h3, h4, -⟩ := checkInteger_spec h
    exact ⟨h1, h2, h3, h4⟩
  · rintro ⟨h1, h2, h3, h4⟩
    unfold checkInteger
    rw [if_neg (by push Not; exact ⟨h1, h2⟩)]
    simp only [h3, h4, if_true]
    exact ⟨_, _, rfl⟩

/-- **C97** the outputs: a digit is given exactly when both entries of the denominator are non-zero and the quotients at 0 and
at infinity, rounded towards zero, agree.  `reduce_recip` then continues with `1/(f - i)`, `reduce_mul` with `base·(f - i)`. -/
theorem block_outputs (m : Block) (base : ℤ) :
    (∀ i, m.reduceRecip.1 = some i ↔
      m.qm1 ≠ 0 ∧ m.qm2 ≠ 0 ∧ IsTrunc ((m.pm1 : ℝ) / m.qm1) i ∧ IsTrunc ((m.pm2 : ℝ) / m.qm2) i) ∧
    (m.reduceMul base).1 = m.reduceRecip.1 ∧
    (m.reduceRecip.1 = none → m.reduceRecip.2 = m ∧ (m.reduceMul base).2 = m) ∧
    (∀ i, m.reduceRecip.1 = some i → ∀ x : ℝ, m.qm1 * x + m.qm2 ≠ 0 →
      m.reduceRecip.2.mob x = 1 / (m.mob x - i) ∧ (m.reduceMul base).2.mob x = base * (m.mob x - i)) := by
  have tr : ∀ p q i : ℤ, q ≠ 0 → (p.tdiv q = i ↔ IsTrunc ((p : ℝ) / q) i) := fun p q i hq =>
    ⟨fun h => h ▸ isTrunc_tdiv hq, fun h => (isTrunc_tdiv hq).unique h⟩
  have hi : ∀ i, m.reduceRecip.1 = some i ↔ ∃ r1 r2, m.checkInteger = some (i, r1, r2) := by
    intro i
    unfold reduceRecip
    cases h : m.checkInteger with
    | none => simp
    | some v => obtain ⟨j, r1, r2⟩ := v; simp
  refine ⟨fun i => ?_, ?_, ?_, ?_⟩
  · rw [hi, checkInteger_iff]
    constructor
    · rintro ⟨h1, h2, h3, h4⟩
      exact ⟨h1, h2, (tr _ _ _ h1).mp h3, (tr _ _ _ h2).mp h4⟩
    · rintro ⟨h1, h2, h3, h4⟩
      exact ⟨h1, h2, (tr _ _ _ h1).mpr h3, (tr _ _ _ h2).mpr h4⟩
  · unfold reduceMul reduceRecip
    cases h : m.checkInteger <;> rfl
  · intro h
    unfold reduceMul
    unfold reduceRecip at h ⊢
    cases hc : m.checkInteger with
    | none => exact ⟨rfl, rfl⟩
    | some v => rw [hc] at h; cases h
  · intro i h x hx
    obtain ⟨r1, r2, hc⟩ := (hi i).mp h
    obtain ⟨-, -, -, -, -, -, e1, e2⟩ := checkInteger_spec hc
    have key : m.mob x - i = (r1 * x + r2) / (m.qm1 * x + m.qm2) := by
      unfold mob
      rw [eq_div_iff hx, sub_mul, div_mul_cancel₀ _ hx, e1, e2]
      push_cast
      ring
    rw [key]
    unfold reduceMul reduceRecip
    rw [hc]
    simp only [mob]
    constructor
    · rw [one_div_div]
    · push_cast
      rw [← mul_div_assoc]
      congr 1
      ring

example : (Block.mk 7 10 2 3).reduceRecip = (some 3, ⟨2, 3, 1, 1⟩) ∧ (Block.mk 7 10 2 3).reduceMul 10 = (some 3, ⟨10, 10, 2, 3⟩) ∧
    (Block.mk 7 9 2 4).reduceRecip = (none, ⟨7, 9, 2, 4⟩) := by decide +kernel

/-- **C97** when the entries of the denominator have the same sign, a digit is the value rounded towards zero at every
argument from zero on, and also at infinity; conversely the digit is given whenever that is so.  Without the condition on the
signs this is false, see `block_digit_refuted`. -/
theorem block_digit_partial (m : Block) (h : 0 < m.qm1 * m.qm2) (i : ℤ) :
    m.reduceRecip.1 = some i ↔ (∀ x : ℝ, 0 ≤ x → IsTrunc (m.mob x) i) ∧ IsTrunc ((m.pm1 : ℝ) / m.qm1) i := by
  have h1 : m.qm1 ≠ 0 := fun e => by rw [e, zero_mul] at h; omega
  have h2 : m.qm2 ≠ 0 := fun e => by rw [e, mul_zero] at h; omega
  rw [(block_outputs m 1).1 i]
  constructor
  · rintro ⟨-, -, h3, h4⟩
    refine ⟨fun x hx => ?_, h3⟩
    have hh : (0 : ℝ) < m.qm1 * m.qm2 := by exact_mod_cast h
    have k1 : (m.qm1 : ℝ) ≠ 0 := by exact_mod_cast h1
    have k2 : (m.qm2 : ℝ) ≠ 0 := by exact_mod_cast h2
    -- the value is a mean of the quotients
    have hd : 0 < (m.qm1 * x + m.qm2) * (m.qm2 : ℝ) := by
      have : 0 < (m.qm2 : ℝ) * m.qm2 := mul_self_pos.mpr k2
      nlinarith [mul_nonneg hh.le hx]
    have hd0 : (m.qm1 : ℝ) * x + m.qm2 ≠ 0 := fun e => by rw [e, zero_mul] at hd; exact lt_irrefl _ hd
    set u : ℝ := m.qm1 * x / (m.qm1 * x + m.qm2) with hu
    have hu0 : 0 ≤ u := by
      rw [hu, show (m.qm1 : ℝ) * x / (m.qm1 * x + m.qm2) = (m.qm1 * m.qm2 * x) / ((m.qm1 * x + m.qm2) * m.qm2) by
        field_simp]
      positivity
    have hu1 : 0 ≤ 1 - u := by
      have : 1 - u = (m.qm2 * m.qm2) / ((m.qm1 * x + m.qm2) * m.qm2) := by
        rw [hu]; field_simp; ring
      rw [this]
      have : 0 < (m.qm2 : ℝ) * m.qm2 := mul_self_pos.mpr k2
      positivity
    have e : m.mob x = u * (m.pm1 / m.qm1) + (1 - u) * (m.pm2 / m.qm2) := by
      have e1 : 1 - u = m.qm2 / (m.qm1 * x + m.qm2) := by rw [hu, eq_div_iff hd0, sub_mul, div_mul_cancel₀ _ hd0]; ring
      rw [e1, hu, div_mul_div_comm, div_mul_div_comm]
      rw [show (m.qm1 : ℝ) * x * m.pm1 = m.pm1 * x * m.qm1 by ring, show (m.qm2 : ℝ) * m.pm2 = m.pm2 * m.qm2 by ring,
        mul_div_mul_right _ _ k1, mul_div_mul_right _ _ k2, ← add_div]
      rfl
    rcases le_total ((m.pm1 : ℝ) / m.qm1) (m.pm2 / m.qm2) with hle | hle
    · exact h3.between h4 (by rw [e]; nlinarith) (by rw [e]; nlinarith)
    · exact h4.between h3 (by rw [e]; nlinarith) (by rw [e]; nlinarith)
  · rintro ⟨h3, h4⟩
    refine ⟨h1, h2, h4, ?_⟩
    have := h3 0 le_rfl
    unfold mob at this
    simpa using this

example : 0 < (Block.mk (-7) (-10) 2 3).qm1 * (Block.mk (-7) (-10) 2 3).qm2 ∧ (Block.mk (-7) (-10) 2 3).reduceRecip.1 = some (-3) := by
  decide +kernel

/-- **C97** with a pole at a positive argument a digit may be wrong: `(3x - 7)/(2x - 4)` gives 1, but is 2 at `x = 1`. -/
theorem block_digit_refuted : ∃ m : Block, m.reduceRecip.1 = some 1 ∧ m.mob 1 = 2 ∧ ¬ IsTrunc (m.mob 1) 1 := by
  have h : (Block.mk 3 (-7) 2 (-4)).mob 1 = 2 := by norm_num [mob]
  refine ⟨⟨3, -7, 2, -4⟩, by decide +kernel, h, ?_⟩
  rw [h, isTrunc_iff]
  norm_num

end Block
end NumIrr
