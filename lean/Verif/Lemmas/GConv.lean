/-
Convergents of generalized continued fractions: recurrences, nested fractions, complete quotients of a convergent
positive fraction, and the time after which a block can give its integer part.
-/
import Verif.Lemmas.BlockVal
import Mathlib.NumberTheory.Real.Irrational
import Mathlib.Topology.Algebra.Order.LiminfLimsup
import Mathlib.Tactic.NormNum

namespace NumIrr

open Filter Topology

namespace Block

/-- `n` moves without removing common factors -/
def rawN (m : Block) (g : ℕ → ℤ × ℤ) : ℕ → Block
  | 0 => m
  | n + 1 => (rawN m g n).raw (g n).1 (g n).2

end Block

open Block

/-- numerators and denominators of the convergents; index `n` uses `n` pairs -/
def gP (g : ℕ → ℤ × ℤ) (n : ℕ) : ℤ := (rawN Block.identity g n).pm1
def gQ (g : ℕ → ℤ × ℤ) (n : ℕ) : ℤ := (rawN Block.identity g n).qm1

theorem rawN_lin (m : Block) (g : ℕ → ℤ × ℤ) (n : ℕ) :
    (rawN m g n).pm1 = m.pm1 * gP g n + m.pm2 * gQ g n ∧ (rawN m g n).qm1 = m.qm1 * gP g n + m.qm2 * gQ g n ∧
      (rawN m g n).pm2 = m.pm1 * (rawN Block.identity g n).pm2 + m.pm2 * (rawN Block.identity g n).qm2 ∧
      (rawN m g n).qm2 = m.qm1 * (rawN Block.identity g n).pm2 + m.qm2 * (rawN Block.identity g n).qm2 := by
  induction n with
  | zero => simp [rawN, gP, gQ, Block.identity]
  | succ n ih =>
    obtain ⟨h1, h2, h3, h4⟩ := ih
    simp only [gP, gQ, rawN, Block.raw] at *
    rw [h1, h2, h3, h4]
    refine ⟨by ring, by ring, rfl, rfl⟩

theorem rawN_shift (m : Block) (g : ℕ → ℤ × ℤ) (n : ℕ) :
    rawN m g (n + 1) = rawN (m.raw (g 0).1 (g 0).2) (shiftG g) n := by
  induction n with
  | zero => rfl
  | succ n ih => rw [rawN, ih]; rfl

@[simp] theorem gP_zero (g : ℕ → ℤ × ℤ) : gP g 0 = 1 := rfl
@[simp] theorem gQ_zero (g : ℕ → ℤ × ℤ) : gQ g 0 = 0 := rfl

theorem gP_cons (g : ℕ → ℤ × ℤ) (n : ℕ) : gP g (n + 1) = (g 0).2 * gP (shiftG g) n + gQ (shiftG g) n := by
  rw [gP, rawN_shift, (rawN_lin _ _ _).1]
  simp [Block.raw, Block.identity]

theorem gQ_cons (g : ℕ → ℤ × ℤ) (n : ℕ) : gQ g (n + 1) = (g 0).1 * gP (shiftG g) n := by
  rw [gQ, rawN_shift, (rawN_lin _ _ _).2.1]
  simp [Block.raw, Block.identity]

theorem gP_rec (g : ℕ → ℤ × ℤ) (n : ℕ) :
    gP g (n + 2) = gP g (n + 1) * (g (n + 1)).2 + gP g n * (g (n + 1)).1 := rfl

theorem gQ_rec (g : ℕ → ℤ × ℤ) (n : ℕ) :
    gQ g (n + 2) = gQ g (n + 1) * (g (n + 1)).2 + gQ g n * (g (n + 1)).1 := rfl

theorem gP_one (g : ℕ → ℤ × ℤ) : gP g 1 = (g 0).2 := by rw [gP_cons]; simp
theorem gQ_one (g : ℕ → ℤ × ℤ) : gQ g 1 = (g 0).1 := by rw [gQ_cons]; simp

/-! ### nested fractions -/

theorem nest_gP : ∀ (n : ℕ) (g : ℕ → ℤ × ℤ) (v : ℚ), nest g n = some v →
    gP (shiftG g) n ≠ 0 ∧ (gP g (n + 1) : ℚ) = v * gP (shiftG g) n
  | 0, g, v, h => by
    simp only [nest, Option.some.injEq] at h
    subst h
    rw [gP_one]; simp
  | n + 1, g, v, h => by
    rw [nest] at h
    split at h
    · simp at h
    · rename_i t ht
      split at h
      · simp at h
      · rename_i t0
        simp only [Option.some.injEq] at h
        obtain ⟨h1, h2⟩ := nest_gP n (shiftG g) t ht
        have h1' : (gP (shiftG (shiftG g)) n : ℚ) ≠ 0 := by exact_mod_cast h1
        constructor
        · intro h0
          rw [h0] at h2
          rcases mul_eq_zero.mp (h2.symm.trans (by norm_num)) with h | h
          · exact t0 h
          · exact h1' h
        · rw [gP_cons, gQ_cons, ← h]
          push_cast
          rw [h2]
          have : (shiftG g 0).1 = (g 1).1 := rfl
          rw [this]
          field_simp

theorem nest_eq {g : ℕ → ℤ × ℤ} (h0 : (g 0).1 = 1) {n : ℕ} {v : ℚ} (h : nest g n = some v) :
    gQ g (n + 1) ≠ 0 ∧ v = (gP g (n + 1) : ℚ) / gQ g (n + 1) := by
  obtain ⟨h1, h2⟩ := nest_gP n g v h
  rw [gQ_cons, h0, one_mul]
  refine ⟨h1, ?_⟩
  have : (gP (shiftG g) n : ℚ) ≠ 0 := by exact_mod_cast h1
  rw [h2]; field_simp

/-! ### positive fractions -/

/-- positive, the first denominator may be `0` -/
def PosT (g : ℕ → ℤ × ℤ) : Prop := (∀ k, 1 ≤ (g k).1) ∧ 0 ≤ (g 0).2 ∧ ∀ k, 1 ≤ (g (k + 1)).2

/-- positive -/
def PosS (g : ℕ → ℤ × ℤ) : Prop := ∀ k, 1 ≤ (g k).1 ∧ 1 ≤ (g k).2

theorem PosG.posT {g : ℕ → ℤ × ℤ} (h : PosG g) : PosT g := by
  obtain ⟨h1, h2, h3⟩ := h
  refine ⟨fun k => ?_, h2, fun k => (h3 k).2⟩
  cases k with
  | zero => rw [h1]
  | succ k => exact (h3 k).1

theorem PosT.shift {g : ℕ → ℤ × ℤ} (h : PosT g) : PosS (shiftG g) := fun k => ⟨h.1 (k + 1), h.2.2 k⟩
theorem PosS.shift {g : ℕ → ℤ × ℤ} (h : PosS g) : PosS (shiftG g) := fun k => h (k + 1)
theorem PosS.posT {g : ℕ → ℤ × ℤ} (h : PosS g) : PosT g :=
  ⟨fun k => (h k).1, by have := (h 0).2; omega, fun k => (h (k + 1)).2⟩

theorem PosS.gP_pos {g : ℕ → ℤ × ℤ} (h : PosS g) (n : ℕ) : 1 ≤ gP g n ∧ 0 ≤ gQ g n := by
  induction n generalizing g with
  | zero => simp
  | succ n ih =>
    obtain ⟨h1, h2⟩ := ih h.shift
    obtain ⟨h3, h4⟩ := h 0
    rw [gP_cons, gQ_cons]
    constructor <;> nlinarith

theorem PosT.gQ_pos {g : ℕ → ℤ × ℤ} (h : PosT g) (n : ℕ) : 1 ≤ gQ g (n + 1) ∧ 0 ≤ gP g (n + 1) := by
  obtain ⟨h1, h2⟩ := h.shift.gP_pos n
  have h3 := h.1 0
  have h4 := h.2.1
  rw [gP_cons, gQ_cons]
  constructor <;> nlinarith

theorem PosT.nest_some {g : ℕ → ℤ × ℤ} (h : PosT g) (n : ℕ) :
    ∃ v : ℚ, nest g n = some v ∧ (gP (shiftG g) n : ℚ) * v = gP g (n + 1) := by
  induction n generalizing g with
  | zero => exact ⟨(g 0).2, rfl, by rw [gP_one]; simp⟩
  | succ n ih =>
    obtain ⟨t, ht, he⟩ := ih h.shift.posT
    have hp : (1 : ℚ) ≤ gP (shiftG g) (n + 1) := by exact_mod_cast (h.shift.gP_pos (n + 1)).1
    have t0 : t ≠ 0 := by
      rintro rfl
      rw [mul_zero] at he
      linarith
    have hs : nest g (n + 1) = some ((g 0).2 + (g 1).1 / t) := by rw [nest, ht]; simp [t0]
    refine ⟨_, hs, ?_⟩
    rw [(nest_gP _ _ _ hs).2, mul_comm]

/-- the convergents tend to `w` -/
def CTo (g : ℕ → ℤ × ℤ) (w : ℝ) : Prop := Tendsto (fun n => (gP g (n + 1) : ℝ) / gQ g (n + 1)) atTop (𝓝 w)

theorem GVal.cto {g : ℕ → ℤ × ℤ} (h0 : (g 0).1 = 1) {x : ℝ} (h : GVal g x) : CTo g x := by
  obtain ⟨v, hv, hx⟩ := h
  refine hx.congr' ?_
  filter_upwards [hv] with n hn
  rw [(nest_eq h0 hn).2]
  push_cast
  rfl

theorem CTo.gVal {g : ℕ → ℤ × ℤ} (hp : PosG g) {x : ℝ} (h : CTo g x) : GVal g x := by
  choose v hv _ using fun n => hp.posT.nest_some n
  refine ⟨v, Eventually.of_forall hv, h.congr fun n => ?_⟩
  rw [(nest_eq hp.1 (hv n)).2]
  push_cast
  rfl

theorem CTo.shift {g : ℕ → ℤ × ℤ} (hp : PosT g) {x : ℝ} (h : CTo g x) :
    0 < ((g 0).1 : ℝ) * x - (g 0).2 ∧ CTo (shiftG g) (1 / (((g 0).1 : ℝ) * x - (g 0).2)) := by
  have ha : (0 : ℝ) < (g 0).1 := by have := hp.1 0; exact_mod_cast this
  have hp1 := hp.shift
  have hp2 := hp1.shift
  have hp3 := hp2.shift
  -- the reciprocals of the convergents of the tail
  have hr : Tendsto (fun n => (gQ (shiftG g) (n + 1) : ℝ) / gP (shiftG g) (n + 1)) atTop
      (𝓝 (((g 0).1 : ℝ) * x - (g 0).2)) := by
    have h' : Tendsto (fun n => (gP g (n + 2) : ℝ) / gQ g (n + 2)) atTop (𝓝 x) := (tendsto_add_atTop_iff_nat 1).mpr h
    refine ((h'.const_mul ((g 0).1 : ℝ)).sub_const ((g 0).2 : ℝ)).congr fun n => ?_
    have hpos : (0 : ℝ) < gP (shiftG g) (n + 1) := by have := (hp1.gP_pos (n + 1)).1; exact_mod_cast this
    rw [gP_cons g (n + 1), gQ_cons g (n + 1)]
    push_cast
    field_simp
    ring
  have hl : ((g 1).1 : ℝ) / ((g 1).2 + (g 2).1) ≤ ((g 0).1 : ℝ) * x - (g 0).2 := by
    have hr' : Tendsto (fun n => (gQ (shiftG g) (n + 2) : ℝ) / gP (shiftG g) (n + 2)) atTop
      (𝓝 (((g 0).1 : ℝ) * x - (g 0).2)) := (tendsto_add_atTop_iff_nat 1).mpr hr
    refine ge_of_tendsto' hr' fun n => ?_
    have e1 : gQ (shiftG g) (n + 2) = (g 1).1 * gP (shiftG (shiftG g)) (n + 1) := gQ_cons _ _
    have e2 : gP (shiftG g) (n + 2) = (g 1).2 * gP (shiftG (shiftG g)) (n + 1) + gQ (shiftG (shiftG g)) (n + 1) :=
      gP_cons _ _
    have e3 : gQ (shiftG (shiftG g)) (n + 1) = (g 2).1 * gP (shiftG (shiftG (shiftG g))) n := gQ_cons _ _
    have e4 : gP (shiftG (shiftG g)) (n + 1) = (g 2).2 * gP (shiftG (shiftG (shiftG g))) n
      + gQ (shiftG (shiftG (shiftG g))) n := gP_cons _ _
    obtain ⟨p1, p2⟩ := hp2.gP_pos (n + 1)
    obtain ⟨p3, p4⟩ := hp3.gP_pos n
    have a1 := (hp1 0).1
    have b1 := (hp1 0).2
    have a2 := (hp2 0).1
    have b2 := (hp2 0).2
    have a1' : 1 ≤ (g 1).1 := a1
    have b1' : 1 ≤ (g 1).2 := b1
    have a2' : 1 ≤ (g 2).1 := a2
    have b2' : 1 ≤ (g 2).2 := b2
    have k1 : gP (shiftG (shiftG (shiftG g))) n ≤ gP (shiftG (shiftG g)) (n + 1) := by rw [e4]; nlinarith
    have k2 : gP (shiftG g) (n + 2) ≤ ((g 1).2 + (g 2).1) * gP (shiftG (shiftG g)) (n + 1) := by
      rw [e2, e3]; nlinarith
    have k3 := (hp1.gP_pos (n + 2)).1
    have d1 : (0 : ℝ) < ((g 1).2 + (g 2).1 : ℝ) := by
      have : (0 : ℤ) < (g 1).2 + (g 2).1 := by omega
      exact_mod_cast this
    have d2 : (0 : ℝ) < gP (shiftG g) (n + 2) := by exact_mod_cast k3
    rw [div_le_div_iff₀ d1 d2]
    have k4 : (g 1).1 * gP (shiftG g) (n + 2) ≤ gQ (shiftG g) (n + 2) * ((g 1).2 + (g 2).1) := by
      rw [e1]; nlinarith
    exact_mod_cast k4
  have hpos : 0 < ((g 0).1 : ℝ) * x - (g 0).2 := by
    refine lt_of_lt_of_le ?_ hl
    have a1 : 1 ≤ (g 1).1 := (hp1 0).1
    have b1 : 1 ≤ (g 1).2 := (hp1 0).2
    have a2 : 1 ≤ (g 2).1 := (hp2 0).1
    have d1 : (0 : ℝ) < ((g 1).2 + (g 2).1 : ℝ) := by
      have : (0 : ℤ) < (g 1).2 + (g 2).1 := by omega
      exact_mod_cast this
    have : (0 : ℝ) < (g 1).1 := by exact_mod_cast a1
    positivity
  refine ⟨hpos, ?_⟩
  have := hr.inv₀ hpos.ne'
  rw [one_div]
  refine this.congr fun n => ?_
  rw [inv_div]

/-- drop the first `k` pairs -/
def dropG (g : ℕ → ℤ × ℤ) (k : ℕ) : ℕ → ℤ × ℤ := fun n => g (k + n)

theorem shiftG_dropG (g : ℕ → ℤ × ℤ) (k : ℕ) : shiftG (dropG g k) = dropG g (k + 1) := by
  funext n; simp only [shiftG, dropG]; congr 1; omega

theorem PosT.drop {g : ℕ → ℤ × ℤ} (h : PosT g) (k : ℕ) : PosT (dropG g k) := by
  refine ⟨fun n => h.1 _, ?_, fun n => ?_⟩
  · cases k with
    | zero => simpa [dropG] using h.2.1
    | succ k => have := h.2.2 k; simp only [dropG, Nat.add_zero]; omega
  · have := h.2.2 (k + n)
    simpa only [dropG, Nat.add_assoc] using this

/-- the complete quotients -/
noncomputable def gw (g : ℕ → ℤ × ℤ) (x : ℝ) : ℕ → ℝ
  | 0 => x
  | k + 1 => 1 / (((g k).1 : ℝ) * gw g x k - (g k).2)

/-- complete quotients of a sequence of pairs: `aₖ·wₖ = bₖ + 1/wₖ₊₁`, all positive -/
def Chain (g : ℕ → ℤ × ℤ) (w : ℕ → ℝ) : Prop := ∀ k, 0 < w k ∧ ((g k).1 : ℝ) * w k = (g k).2 + 1 / w (k + 1)

theorem CTo.drop {g : ℕ → ℤ × ℤ} (hp : PosT g) {x : ℝ} (h : CTo g x) (k : ℕ) : CTo (dropG g k) (gw g x k) := by
  induction k with
  | zero =>
    have : dropG g 0 = g := by funext n; simp [dropG]
    rw [this]; exact h
  | succ k ih =>
    rw [← shiftG_dropG]
    exact (ih.shift (hp.drop k)).2

theorem CTo.chain {g : ℕ → ℤ × ℤ} (hp : PosT g) {x : ℝ} (h : CTo g x) : Chain g (gw g x) := by
  intro k
  have h1 : 0 < ((g k).1 : ℝ) * gw g x k - (g k).2 := ((h.drop hp k).shift (hp.drop k)).1
  have ha : (0 : ℝ) < (g k).1 := by have := hp.1 k; exact_mod_cast this
  have hb : (0 : ℝ) ≤ (g k).2 := by have := (hp.drop k).2.1; exact_mod_cast this
  refine ⟨?_, ?_⟩
  · by_contra hc
    push Not at hc
    nlinarith
  · rw [gw, one_div_one_div]; ring

/-! ### a block can give its integer part after finitely many moves -/

theorem rawN_scal {g : ℕ → ℤ × ℤ} {ms : ℕ → Block} (hs : ∀ j, Scal (ms (j + 1)) ((ms j).raw (g j).1 (g j).2)) (j : ℕ) :
    Scal (ms j) (rawN (ms 0) g j) := by
  induction j with
  | zero => exact Scal.refl _
  | succ j ih => exact (hs j).trans (ih.raw _ _)

theorem tdiv_of_bounds {p q i : ℤ} (hq : 0 < q) (hp : 0 ≤ p) (h1 : i * q ≤ p) (h2 : p < (i + 1) * q) : p.tdiv q = i := by
  rw [Int.tdiv_eq_ediv_of_nonneg hp]
  apply le_antisymm
  · have : p / q < i + 1 := Int.ediv_lt_of_lt_mul hq h2
    omega
  · exact (Int.le_ediv_iff_mul_le hq).mpr h1

theorem eventually_check {g : ℕ → ℤ × ℤ} (hp : PosT g) {w : ℝ} (hw : CTo g w) {ms : ℕ → Block}
    (hs : ∀ j, Scal (ms (j + 1)) ((ms j).raw (g j).1 (g j).2)) (hn : Nonneg (ms 0)) (hd : 0 < (ms 0).den w)
    (hz : Irrational ((ms 0).num w / (ms 0).den w)) : ∃ j r, (ms j).checkInteger = some r := by
  set m := ms 0 with hm
  set z := m.num w / m.den w with hzd
  have hN : ∀ j, Nonneg (ms j) := by
    intro j
    induction j with
    | zero => exact hn
    | succ j ih =>
      exact (hs j).nonneg (raw_nonneg ih (by have := hp.1 j; omega) (by have := (hp.drop j).2.1; simpa [dropG] using this))
  -- denominators divided by those of the convergents
  have hden : Tendsto (fun n => m.den ((gP g (n + 1) : ℝ) / gQ g (n + 1))) atTop (𝓝 (m.den w)) := by
    unfold Block.den
    exact (hw.const_mul _).add_const _
  have hnum : Tendsto (fun n => m.num ((gP g (n + 1) : ℝ) / gQ g (n + 1))) atTop (𝓝 (m.num w)) := by
    unfold Block.num
    exact (hw.const_mul _).add_const _
  have hrat := hnum.div hden hd.ne'
  have e1 := hden.eventually (lt_mem_nhds hd)
  have hfl1 : (⌊z⌋ : ℝ) < z := lt_of_le_of_ne (Int.floor_le z) (fun h => hz ⟨⌊z⌋, by rw [Rat.cast_intCast]; exact h⟩)
  have e2 := hrat.eventually (lt_mem_nhds hfl1)
  have e3 := hrat.eventually (gt_mem_nhds (Int.lt_floor_add_one z))
  obtain ⟨J, hJ⟩ := eventually_atTop.mp (e1.and (e2.and e3))
  -- in terms of the moved blocks
  have key : ∀ j, J ≤ j → 0 < (ms (j + 1)).qm1 ∧ ⌊z⌋ * (ms (j + 1)).qm1 ≤ (ms (j + 1)).pm1 ∧
      (ms (j + 1)).pm1 < (⌊z⌋ + 1) * (ms (j + 1)).qm1 := by
    intro j hj
    obtain ⟨k1, k2, k3⟩ := hJ j hj
    have hq : (0 : ℝ) < gQ g (j + 1) := by have := (hp.gQ_pos j).1; exact_mod_cast this
    obtain ⟨lam, l0, s1, -, s3, -⟩ := rawN_scal hs (j + 1)
    have l0' : (0 : ℝ) < lam := by exact_mod_cast l0
    obtain ⟨r1, r2, -, -⟩ := rawN_lin (ms 0) g (j + 1)
    have d1 : m.den ((gP g (j + 1) : ℝ) / gQ g (j + 1)) = lam * (ms (j + 1)).qm1 / gQ g (j + 1) := by
      have : (lam * (ms (j + 1)).qm1 : ℝ) = m.qm1 * gP g (j + 1) + m.qm2 * gQ g (j + 1) := by
        exact_mod_cast s3.symm.trans r2
      rw [this, Block.den]; field_simp
    have d2 : m.num ((gP g (j + 1) : ℝ) / gQ g (j + 1)) = lam * (ms (j + 1)).pm1 / gQ g (j + 1) := by
      have : (lam * (ms (j + 1)).pm1 : ℝ) = m.pm1 * gP g (j + 1) + m.pm2 * gQ g (j + 1) := by
        exact_mod_cast s1.symm.trans r1
      rw [this, Block.num]; field_simp
    have q0 : (0 : ℝ) < (ms (j + 1)).qm1 := by
      rw [d1] at k1
      by_contra hc
      push Not at hc
      have : lam * ((ms (j + 1)).qm1 : ℝ) / gQ g (j + 1) ≤ 0 :=
        div_nonpos_of_nonpos_of_nonneg (by nlinarith) hq.le
      linarith
    have hdiv : (m.num ((gP g (j + 1) : ℝ) / gQ g (j + 1))) / m.den ((gP g (j + 1) : ℝ) / gQ g (j + 1))
        = (ms (j + 1)).pm1 / (ms (j + 1)).qm1 := by
      rw [d1, d2]; field_simp
    rw [Pi.div_apply, hdiv] at k2 k3
    rw [lt_div_iff₀ q0] at k2
    rw [div_lt_iff₀ q0] at k3
    refine ⟨by exact_mod_cast q0, ?_, ?_⟩
    · have := k2.le; exact_mod_cast this
    · exact_mod_cast k3
  obtain ⟨a1, a2, a3⟩ := key (J + 1) (by omega)
  obtain ⟨b1, b2, b3⟩ := key J le_rfl
  refine ⟨J + 2, ?_⟩
  -- the second column is the previous first one, up to the factor
  obtain ⟨lam, l0, -, s2, -, s4⟩ := hs (J + 1)
  simp only [Block.raw] at s2 s4
  have c1 : 0 < (ms (J + 2)).qm2 := by
    rw [s4] at b1; exact (mul_pos_iff_of_pos_left l0).mp b1
  have c2 : ⌊z⌋ * (ms (J + 2)).qm2 ≤ (ms (J + 2)).pm2 := by
    rw [s4, s2] at b2
    have : lam * (⌊z⌋ * (ms (J + 2)).qm2) ≤ lam * (ms (J + 2)).pm2 := by linarith
    exact le_of_mul_le_mul_left this l0
  have c3 : (ms (J + 2)).pm2 < (⌊z⌋ + 1) * (ms (J + 2)).qm2 := by
    rw [s4, s2] at b3
    have : lam * (ms (J + 2)).pm2 < lam * ((⌊z⌋ + 1) * (ms (J + 2)).qm2) := by linarith
    exact lt_of_mul_lt_mul_left this l0.le
  have t1 := tdiv_of_bounds a1 (hN _).1 a2 a3
  have t2 := tdiv_of_bounds c1 (hN _).2.1 c2 c3
  have a1' : (ms (J + 2)).qm1 ≠ 0 := ne_of_gt a1
  unfold Block.checkInteger
  rw [if_neg (by push Not; exact ⟨a1', c1.ne'⟩)]
  simp only
  rw [if_pos (t1.trans t2.symm)]
  exact ⟨_, rfl⟩

end NumIrr
