/-
Blocks as Möbius maps: values, moves, scaling by a common factor, the outputs.
-/
import Verif.Model.Block
import Verif.Spec.GCF
import Mathlib.Tactic.Ring
import Mathlib.Tactic.Linarith
import Mathlib.Tactic.FieldSimp
import Mathlib.Tactic.LinearCombination
import Mathlib.Tactic.Push
import Mathlib.Tactic.Positivity

namespace NumIrr
namespace Block

/-- numerator and denominator at a real argument -/
noncomputable def num (m : Block) (w : ℝ) : ℝ := m.pm1 * w + m.pm2
noncomputable def den (m : Block) (w : ℝ) : ℝ := m.qm1 * w + m.qm2

/-- determinant -/
def det (m : Block) : ℤ := m.pm1 * m.qm2 - m.pm2 * m.qm1

/-- entries are non-negative -/
def Nonneg (m : Block) : Prop := 0 ≤ m.pm1 ∧ 0 ≤ m.pm2 ∧ 0 ≤ m.qm1 ∧ 0 ≤ m.qm2

theorem identity_nonneg : Nonneg Block.identity := ⟨by decide, by decide, by decide, by decide⟩

/-- a move with a pair, without removing common factors -/
def raw (m : Block) (a b : ℤ) : Block := ⟨m.pm1 * b + m.pm2 * a, m.pm1, m.qm1 * b + m.qm2 * a, m.qm1⟩

/-- `m' = lam * m` with `lam > 0` -/
def Scal (m m' : Block) : Prop :=
  ∃ lam : ℤ, 0 < lam ∧ m'.pm1 = lam * m.pm1 ∧ m'.pm2 = lam * m.pm2 ∧ m'.qm1 = lam * m.qm1 ∧ m'.qm2 = lam * m.qm2

theorem Scal.refl (m : Block) : Scal m m := ⟨1, by norm_num, by ring, by ring, by ring, by ring⟩

theorem Scal.trans {m m' m'' : Block} (h : Scal m m') (h' : Scal m' m'') : Scal m m'' := by
  obtain ⟨l, l0, a, b, c, d⟩ := h
  obtain ⟨k, k0, a', b', c', d'⟩ := h'
  exact ⟨k * l, by positivity, by rw [a', a]; ring, by rw [b', b]; ring, by rw [c', c]; ring, by rw [d', d]; ring⟩

theorem Scal.raw {m m' : Block} (h : Scal m m') (a b : ℤ) : Scal (m.raw a b) (m'.raw a b) := by
  obtain ⟨l, l0, ha, hb, hc, hd⟩ := h
  refine ⟨l, l0, ?_, ?_, ?_, ?_⟩ <;> simp only [Block.raw, ha, hb, hc, hd] <;> ring

theorem rmove_eq_raw (m : Block) (c : ℤ) : m.rmove c = m.raw 1 c := by
  simp only [rmove, update, raw]; congr 1 <;> ring

/-- the common factor divides all four entries of the moved block -/
theorem scal_tdiv {p q r s g : ℤ} (hg : 1 < g) (hp : g ∣ p) (hq : g ∣ q) (hr : g ∣ r) (hs : g ∣ s) :
    Scal ⟨p.tdiv g, q.tdiv g, r.tdiv g, s.tdiv g⟩ ⟨p, q, r, s⟩ :=
  ⟨g, by omega, (Int.mul_tdiv_cancel' hp).symm, (Int.mul_tdiv_cancel' hq).symm, (Int.mul_tdiv_cancel' hr).symm,
    (Int.mul_tdiv_cancel' hs).symm⟩

theorem igcd_dvd4 (p q r s : ℤ) :
    igcd (igcd (igcd p q) r) s ∣ p ∧ igcd (igcd (igcd p q) r) s ∣ q ∧ igcd (igcd (igcd p q) r) s ∣ r ∧
      igcd (igcd (igcd p q) r) s ∣ s := by
  unfold igcd
  have h1 : (((Int.gcd (((Int.gcd (((Int.gcd p q : ℕ)) : ℤ) r : ℕ)) : ℤ) s : ℕ)) : ℤ) ∣ ((Int.gcd (((Int.gcd p q : ℕ)) : ℤ) r : ℕ) : ℤ) := Int.gcd_dvd_left ..
  have h2 : ((Int.gcd (((Int.gcd p q : ℕ)) : ℤ) r : ℕ) : ℤ) ∣ ((Int.gcd p q : ℕ) : ℤ) := Int.gcd_dvd_left ..
  exact ⟨(h1.trans h2).trans (Int.gcd_dvd_left ..), (h1.trans h2).trans (Int.gcd_dvd_right ..),
    h1.trans (Int.gcd_dvd_right ..), Int.gcd_dvd_right ..⟩

theorem gmove_scal (m : Block) (a b : ℤ) : Scal (m.gmove a b) (m.raw a b) := by
  unfold gmove
  obtain ⟨h1, h2, h3, h4⟩ := igcd_dvd4 (m.pm1 * b + m.pm2 * a) (m.qm1 * b + m.qm2 * a) m.pm1 m.qm1
  simp only
  split
  · rename_i hg
    exact scal_tdiv hg h1 h3 h2 h4
  · exact Scal.refl _

/-- a checked move which succeeds is a move up to a common factor -/
theorem checkedGmove_scal {fits : Int → Bool} {m m' : Block} {a b p q : ℤ}
    (h : m.checkedGmove fits a b = (some (p, q), m')) : Scal (m'.update p q) (m.raw a b) := by
  unfold checkedGmove at h
  obtain ⟨h1, h2, h3, h4⟩ := igcd_dvd4 (b * m.pm1 + a * m.pm2) (b * m.qm1 + a * m.qm2) m.pm1 m.qm1
  simp only at h
  split at h
  · split at h
    · rename_i hg
      simp only [Prod.mk.injEq, Option.some.injEq] at h
      obtain ⟨⟨rfl, rfl⟩, rfl⟩ := h
      have := scal_tdiv hg h1 h3 h2 h4
      rw [show m.raw a b = ⟨b * m.pm1 + a * m.pm2, m.pm1, b * m.qm1 + a * m.qm2, m.qm1⟩ by
        simp only [raw]; congr 1 <;> ring]
      exact this
    · simp only [Prod.mk.injEq, Option.some.injEq] at h
      obtain ⟨⟨rfl, rfl⟩, rfl⟩ := h
      rw [show m.raw a b = ⟨b * m.pm1 + a * m.pm2, m.pm1, b * m.qm1 + a * m.qm2, m.qm1⟩ by
        simp only [raw]; congr 1 <;> ring]
      exact Scal.refl _
  · simp at h

theorem checkedGmove_big (m : Block) (a b : ℤ) :
    ∃ p q m', m.checkedGmove (fun _ => true) a b = (some (p, q), m') := by
  unfold checkedGmove
  simp only [Bool.and_self, if_true]
  split
  · exact ⟨_, _, _, rfl⟩
  · exact ⟨_, _, _, rfl⟩

theorem Scal.num {m m' : Block} (h : Scal m m') : ∃ lam : ℝ, 0 < lam ∧ ∀ w, m'.num w = lam * m.num w ∧ m'.den w = lam * m.den w := by
  obtain ⟨l, l0, ha, hb, hc, hd⟩ := h
  refine ⟨l, by exact_mod_cast l0, fun w => ⟨?_, ?_⟩⟩
  · simp only [Block.num, ha, hb]; push_cast; ring
  · simp only [Block.den, hc, hd]; push_cast; ring

theorem Scal.nonneg {m m' : Block} (h : Scal m m') (h0 : Nonneg m') : Nonneg m := by
  obtain ⟨l, l0, ha, hb, hc, hd⟩ := h
  obtain ⟨h1, h2, h3, h4⟩ := h0
  rw [ha] at h1; rw [hb] at h2; rw [hc] at h3; rw [hd] at h4
  exact ⟨nonneg_of_mul_nonneg_right h1 l0, nonneg_of_mul_nonneg_right h2 l0, nonneg_of_mul_nonneg_right h3 l0,
    nonneg_of_mul_nonneg_right h4 l0⟩

theorem raw_nonneg {m : Block} (h : Nonneg m) {a b : ℤ} (ha : 0 ≤ a) (hb : 0 ≤ b) : Nonneg (m.raw a b) := by
  obtain ⟨h1, h2, h3, h4⟩ := h
  exact ⟨by simp only [raw]; positivity, h1, by simp only [raw]; positivity, h3⟩

/-- the value of the moved block at the next quotient -/
theorem raw_num (m : Block) {a b : ℤ} {w w' : ℝ} (h0 : w' ≠ 0) (h : (a : ℝ) * w = b + 1 / w') :
    (m.raw a b).num w' = a * w' * m.num w ∧ (m.raw a b).den w' = a * w' * m.den w := by
  have h1 : (a : ℝ) * w * w' = b * w' + 1 := by rw [h]; field_simp
  constructor
  · simp only [num, raw]; push_cast; linear_combination (-(m.pm1 : ℝ)) * h1
  · simp only [den, raw]; push_cast; linear_combination (-(m.qm1 : ℝ)) * h1

theorem checkInteger_spec {m : Block} {i r1 r2 : ℤ} (h : m.checkInteger = some (i, r1, r2)) :
    m.qm1 ≠ 0 ∧ m.qm2 ≠ 0 ∧ m.pm1.tdiv m.qm1 = i ∧ m.pm2.tdiv m.qm2 = i ∧ r1 = m.pm1.tmod m.qm1 ∧
      r2 = m.pm2.tmod m.qm2 ∧ m.pm1 = i * m.qm1 + r1 ∧ m.pm2 = i * m.qm2 + r2 := by
  unfold checkInteger at h
  split at h
  · simp at h
  · rename_i h0
    push Not at h0
    simp only at h
    split at h
    · rename_i hi
      simp only [Option.some.injEq, Prod.mk.injEq] at h
      obtain ⟨rfl, rfl, rfl⟩ := h
      refine ⟨h0.1, h0.2, rfl, hi.symm, rfl, rfl, ?_, ?_⟩
      · have := Int.mul_tdiv_add_tmod m.pm1 m.qm1; linarith
      · rw [hi]; have := Int.mul_tdiv_add_tmod m.pm2 m.qm2; linarith
    · simp at h

/-- in a non-negative block the two quotients enclose the value -/
theorem checkInteger_nonneg {m : Block} (hn : Nonneg m) {i r1 r2 : ℤ} (h : m.checkInteger = some (i, r1, r2)) :
    0 < m.qm1 ∧ 0 < m.qm2 ∧ 0 ≤ i ∧ 0 ≤ r1 ∧ r1 < m.qm1 ∧ 0 ≤ r2 ∧ r2 < m.qm2 := by
  obtain ⟨h1, h2, h3, -, rfl, rfl, -, -⟩ := checkInteger_spec h
  obtain ⟨n1, n2, n3, n4⟩ := hn
  have q1 : 0 < m.qm1 := lt_of_le_of_ne n3 (Ne.symm h1)
  have q2 : 0 < m.qm2 := lt_of_le_of_ne n4 (Ne.symm h2)
  exact ⟨q1, q2, by rw [← h3]; exact Int.tdiv_nonneg n1 n3, Int.tmod_nonneg _ n1, Int.tmod_lt_of_pos _ q1,
    Int.tmod_nonneg _ n2, Int.tmod_lt_of_pos _ q2⟩

theorem checkInteger_floor {m : Block} (hn : Nonneg m) {i r1 r2 : ℤ} (h : m.checkInteger = some (i, r1, r2)) {w : ℝ}
    (hw : 0 < w) : 0 < m.den w ∧ ⌊m.num w / m.den w⌋ = i ∧ m.num w = i * m.den w + (r1 * w + r2) := by
  obtain ⟨q1, q2, i0, r10, r1q, r20, r2q⟩ := checkInteger_nonneg hn h
  obtain ⟨-, -, -, -, -, -, e1, e2⟩ := checkInteger_spec h
  have q1' : (0 : ℝ) < m.qm1 := by exact_mod_cast q1
  have q2' : (0 : ℝ) < m.qm2 := by exact_mod_cast q2
  have a1 : (0 : ℝ) ≤ r1 := by exact_mod_cast r10
  have a2 : (0 : ℝ) ≤ r2 := by exact_mod_cast r20
  have b1 : (r1 : ℝ) < m.qm1 := by exact_mod_cast r1q
  have b2 : (r2 : ℝ) < m.qm2 := by exact_mod_cast r2q
  have hd : 0 < m.den w := by unfold den; positivity
  have he : m.num w = i * m.den w + (r1 * w + r2) := by
    unfold num den; rw [e1, e2]; push_cast; ring
  refine ⟨hd, ?_, he⟩
  rw [Int.floor_eq_iff, le_div_iff₀ hd, div_lt_iff₀ hd, he]
  constructor
  · nlinarith [mul_nonneg a1 hw.le]
  · have : (r1 : ℝ) * w + r2 < m.den w := by unfold den; nlinarith
    linarith

end Block
end NumIrr
