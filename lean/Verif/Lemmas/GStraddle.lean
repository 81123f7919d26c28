/-
Blocks as linear images of the convergents, for generalized continued fractions whose coefficients need not be positive.
-/
import Verif.Lemmas.DecStep

namespace NumIrr

open Block Filter Topology

/-- the product of two blocks -/
def Block.lmul (A m : Block) : Block :=
  ⟨A.pm1 * m.pm1 + A.pm2 * m.qm1, A.pm1 * m.pm2 + A.pm2 * m.qm2, A.qm1 * m.pm1 + A.qm2 * m.qm1,
    A.qm1 * m.pm2 + A.qm2 * m.qm2⟩

theorem Block.lmul_raw (A m : Block) (a b : ℤ) : (A.lmul m).raw a b = A.lmul (m.raw a b) := by
  simp only [Block.lmul, Block.raw]
  congr 1 <;> ring

theorem Block.lmul_identity (m : Block) : Block.identity.lmul m = m := by
  simp [Block.lmul, Block.identity]

/-- the block is the image of the convergents under a transformation which maps `x` to `y` -/
def LinAt (g : ℕ → ℤ × ℤ) (x y : ℝ) (pos : ℕ) (m : Block) : Prop :=
  ∃ A : Block, Scal m (A.lmul (rawN Block.identity g pos)) ∧ A.den x ≠ 0 ∧ A.num x = y * A.den x

theorem LinAt.new (g : ℕ → ℤ × ℤ) (x : ℝ) : LinAt g x x 0 Block.identity :=
  ⟨Block.identity, by rw [Block.lmul_identity]; exact Scal.refl _, by simp [Block.identity, Block.den],
    by simp [Block.identity, Block.den, Block.num]⟩

theorem LinAt.move {g : ℕ → ℤ × ℤ} {x y : ℝ} {pos : ℕ} {m m' : Block} (h : LinAt g x y pos m)
    (hs : Scal m' (m.raw (g pos).1 (g pos).2)) : LinAt g x y (pos + 1) m' := by
  obtain ⟨A, h1, h2, h3⟩ := h
  refine ⟨A, ?_, h2, h3⟩
  have := hs.trans (h1.raw (g pos).1 (g pos).2)
  rw [Block.lmul_raw] at this
  exact this

theorem LinAt.recip {g : ℕ → ℤ × ℤ} {x y : ℝ} {pos : ℕ} {m : Block} (h : LinAt g x y pos m) {i r1 r2 : ℤ}
    (hc : m.checkInteger = some (i, r1, r2)) (hi : y ≠ i) : LinAt g x (1 / (y - i)) pos (m.after r1 r2) := by
  obtain ⟨A, ⟨l, l0, s1, s2, s3, s4⟩, h2, h3⟩ := h
  obtain ⟨-, -, -, -, -, -, e1, e2⟩ := checkInteger_spec hc
  refine ⟨⟨A.qm1, A.qm2, A.pm1 - i * A.qm1, A.pm2 - i * A.qm2⟩, ⟨l, l0, ?_, ?_, ?_, ?_⟩, ?_, ?_⟩
  · simp only [Block.lmul, Block.after] at *; linarith
  · simp only [Block.lmul, Block.after] at *; linarith
  · simp only [Block.lmul, Block.after] at *
    have : r1 = m.pm1 - i * m.qm1 := by linarith
    rw [this]; linear_combination s1 - i * s3
  · simp only [Block.lmul, Block.after] at *
    have : r2 = m.pm2 - i * m.qm2 := by linarith
    rw [this]; linear_combination s2 - i * s4
  · simp only [Block.den, Block.num] at *
    push_cast
    have : ((A.pm1 : ℝ) - i * A.qm1) * x + (A.pm2 - i * A.qm2) = (y - i) * (A.qm1 * x + A.qm2) := by
      linear_combination h3
    rw [this]
    exact mul_ne_zero (sub_ne_zero.mpr hi) h2
  · simp only [Block.den, Block.num] at *
    push_cast
    have : ((A.pm1 : ℝ) - i * A.qm1) * x + (A.pm2 - i * A.qm2) = (y - i) * (A.qm1 * x + A.qm2) := by
      linear_combination h3
    rw [this]
    have := sub_ne_zero.mpr hi
    field_simp

theorem LinAt.digit {g : ℕ → ℤ × ℤ} {x y : ℝ} {pos : ℕ} {m : Block} (h : LinAt g x y pos m) {i r1 r2 : ℤ}
    (hc : m.checkInteger = some (i, r1, r2)) : LinAt g x (10 * (y - i)) pos (m.afterMul r1 r2) := by
  obtain ⟨A, ⟨l, l0, s1, s2, s3, s4⟩, h2, h3⟩ := h
  obtain ⟨-, -, -, -, -, -, e1, e2⟩ := checkInteger_spec hc
  refine ⟨⟨10 * (A.pm1 - i * A.qm1), 10 * (A.pm2 - i * A.qm2), A.qm1, A.qm2⟩, ⟨l, l0, ?_, ?_, ?_, ?_⟩, h2, ?_⟩
  · simp only [Block.lmul, Block.afterMul] at *
    have : r1 = m.pm1 - i * m.qm1 := by linarith
    rw [this]; linear_combination 10 * s1 - 10 * i * s3
  · simp only [Block.lmul, Block.afterMul] at *
    have : r2 = m.pm2 - i * m.qm2 := by linarith
    rw [this]; linear_combination 10 * s2 - 10 * i * s4
  · simp only [Block.lmul, Block.afterMul] at *; linarith
  · simp only [Block.lmul, Block.afterMul] at *; linarith
  · simp only [Block.den, Block.num] at *
    push_cast
    linear_combination 10 * h3

theorem rawN_snd (g : ℕ → ℤ × ℤ) (n : ℕ) : (rawN Block.identity g (n + 1)).pm2 = gP g n ∧
    (rawN Block.identity g (n + 1)).qm2 = gQ g n := ⟨rfl, rfl⟩

theorem tdiv_of_real {p q i : ℤ} (hq : q ≠ 0) (hi : 0 ≤ i) (h1 : (i : ℝ) ≤ (p : ℝ) / q) (h2 : (p : ℝ) / q < i + 1) :
    p.tdiv q = i := by
  rcases lt_or_gt_of_ne hq with h | h
  · have h' : (q : ℝ) < 0 := by exact_mod_cast h
    rw [le_div_iff_of_neg h'] at h1
    rw [div_lt_iff_of_neg h'] at h2
    have k1 : p ≤ i * q := by exact_mod_cast h1
    have k2 : (i + 1) * q < p := by exact_mod_cast h2
    rw [show p.tdiv q = (-p).tdiv (-q) by rw [Int.tdiv_neg, Int.neg_tdiv, neg_neg]]
    refine tdiv_of_bounds (by omega) ?_ (by linarith) (by linarith)
    nlinarith
  · have h' : (0 : ℝ) < q := by exact_mod_cast h
    rw [le_div_iff₀ h'] at h1
    rw [div_lt_iff₀ h'] at h2
    have k1 : i * q ≤ p := by exact_mod_cast h1
    have k2 : p < (i + 1) * q := by exact_mod_cast h2
    exact tdiv_of_bounds h (by nlinarith) k1 k2

/-- a block whose value is irrational and positive can give its integer part after finitely many moves -/
theorem LinAt.eventually {g : ℕ → ℤ × ℤ} {x y : ℝ} (hx : CTo g x) (hQ : ∀ k, 0 < gQ g (k + 1)) {pos : ℕ} {ms : ℕ → Block}
    (h0 : LinAt g x y pos (ms 0)) (hs : ∀ j, Scal (ms (j + 1)) ((ms j).raw (g (pos + j)).1 (g (pos + j)).2))
    (hy : Irrational y) (hy0 : 0 < y) : ∃ j r, (ms j).checkInteger = some r := by
  obtain ⟨A, h1, h2, h3⟩ := h0
  have hsc : ∀ j, Scal (ms j) (A.lmul (rawN Block.identity g (pos + j))) := by
    intro j
    induction j with
    | zero => exact h1
    | succ j ih =>
      have := (hs j).trans (ih.raw (g (pos + j)).1 (g (pos + j)).2)
      rw [Block.lmul_raw] at this
      exact this
  have hden : Tendsto (fun n => A.den ((gP g (n + 1) : ℝ) / gQ g (n + 1))) atTop (𝓝 (A.den x)) := by
    unfold Block.den
    exact (hx.const_mul _).add_const _
  have hnum : Tendsto (fun n => A.num ((gP g (n + 1) : ℝ) / gQ g (n + 1))) atTop (𝓝 (A.num x)) := by
    unfold Block.num
    exact (hx.const_mul _).add_const _
  have hrat := hnum.div hden h2
  have hyx : A.num x / A.den x = y := by rw [h3]; field_simp
  rw [hyx] at hrat
  have e1 := hden.eventually (isOpen_ne.mem_nhds h2)
  have hfl1 : (⌊y⌋ : ℝ) < y := lt_of_le_of_ne (Int.floor_le y) (fun h => hy ⟨⌊y⌋, by rw [Rat.cast_intCast]; exact h⟩)
  have e2 := hrat.eventually (lt_mem_nhds hfl1)
  have e3 := hrat.eventually (gt_mem_nhds (Int.lt_floor_add_one y))
  obtain ⟨J, hJ⟩ := eventually_atTop.mp (e1.and (e2.and e3))
  have key : ∀ n, J ≤ n → ∀ l p q : ℤ, 0 < l → A.pm1 * gP g (n + 1) + A.pm2 * gQ g (n + 1) = l * p →
      A.qm1 * gP g (n + 1) + A.qm2 * gQ g (n + 1) = l * q → q ≠ 0 ∧ p.tdiv q = ⌊y⌋ := by
    intro n hn l p q l0 ep eq
    obtain ⟨k1, k2, k3⟩ := hJ n hn
    have hq : (0 : ℝ) < gQ g (n + 1) := by exact_mod_cast hQ n
    have l0' : (0 : ℝ) < l := by exact_mod_cast l0
    have d1 : A.den ((gP g (n + 1) : ℝ) / gQ g (n + 1)) = l * q / gQ g (n + 1) := by
      have : (l * q : ℝ) = A.qm1 * gP g (n + 1) + A.qm2 * gQ g (n + 1) := by exact_mod_cast eq.symm
      rw [this, Block.den]; field_simp
    have d2 : A.num ((gP g (n + 1) : ℝ) / gQ g (n + 1)) = l * p / gQ g (n + 1) := by
      have : (l * p : ℝ) = A.pm1 * gP g (n + 1) + A.pm2 * gQ g (n + 1) := by exact_mod_cast ep.symm
      rw [this, Block.num]; field_simp
    have q0 : q ≠ 0 := by
      rintro rfl
      rw [d1] at k1
      simp at k1
    have q0' : (q : ℝ) ≠ 0 := by exact_mod_cast q0
    have hdiv : (A.num ((gP g (n + 1) : ℝ) / gQ g (n + 1))) / A.den ((gP g (n + 1) : ℝ) / gQ g (n + 1))
        = (p : ℝ) / q := by
      rw [d1, d2]; field_simp
    rw [Pi.div_apply, hdiv] at k2 k3
    exact ⟨q0, tdiv_of_real q0 (Int.floor_nonneg.mpr hy0.le) k2.le k3⟩
  obtain ⟨l, l0, s1, s2, s3, s4⟩ := hsc (J + 2)
  obtain ⟨t1, t2⟩ := key (pos + J + 1) (by omega) l _ _ l0 s1 s3
  obtain ⟨u1, u2⟩ := key (pos + J) (by omega) l _ _ l0 s2 s4
  refine ⟨J + 2, ?_⟩
  unfold Block.checkInteger
  rw [if_neg (by push Not; exact ⟨t1, u1⟩)]
  simp only
  rw [if_pos (t2.trans u2.symm)]
  exact ⟨_, rfl⟩

/-! ### convergents on both sides of the number -/

/-- consecutive convergents lie on different sides of `x`, and their denominators are positive -/
def Straddle (g : ℕ → ℤ × ℤ) (x : ℝ) : Prop :=
  (∀ k, 0 < gQ g (k + 1)) ∧ ∀ k, ((gP g (k + 1) : ℝ) - x * gQ g (k + 1)) * (gP g (k + 2) - x * gQ g (k + 2)) ≤ 0

theorem tdiv_bounds {p q i : ℤ} (hq : 0 < q) (h : p.tdiv q = i) :
    (0 ≤ i ∧ i * q ≤ p ∧ p < (i + 1) * q) ∨ (i ≤ 0 ∧ p ≤ i * q ∧ (i - 1) * q < p) := by
  have e := Int.mul_tdiv_add_tmod p q
  rw [h] at e
  rcases le_total 0 p with hp | hp
  · left
    have h1 := Int.tmod_nonneg q hp
    have h2 := Int.tmod_lt_of_pos p hq
    refine ⟨by rw [← h]; exact Int.tdiv_nonneg hp hq.le, by linarith, by linarith⟩
  · right
    have h1 := Int.lt_tmod_of_pos p hq
    have h2 : p.tmod q ≤ 0 := by
      have := Int.tmod_nonneg q (show 0 ≤ -p by omega)
      rw [Int.neg_tmod] at this; omega
    refine ⟨?_, by linarith, by linarith⟩
    rw [← h]
    have := Int.tdiv_nonneg (show 0 ≤ -p by omega) hq.le
    rw [Int.neg_tdiv] at this; omega

/-- two quotients with the same integer part and a non-negative number between them -/
theorem floor_between {p q p' q' i : ℤ} {y : ℝ} (hq : 0 < q) (hq' : 0 < q') (h : p.tdiv q = i) (h' : p'.tdiv q' = i)
    (hy : 0 ≤ y) (hb : ((p : ℝ) - y * q) * (p' - y * q') ≤ 0) : ⌊y⌋ = i := by
  have k : (0 : ℝ) < q := by exact_mod_cast hq
  have k' : (0 : ℝ) < q' := by exact_mod_cast hq'
  -- one of the quotients is below and one is above
  have hlow : ∀ c : ℝ, (c * q ≤ p ∧ c * q' ≤ p') → c ≤ y := by
    rintro c ⟨h1, h2⟩
    by_contra hc
    push Not at hc
    have a1 : 0 < (p : ℝ) - y * q := by nlinarith
    have a2 : 0 < (p' : ℝ) - y * q' := by nlinarith
    have := mul_pos a1 a2
    linarith
  have hup : ∀ c : ℝ, ((p : ℝ) < c * q ∧ (p' : ℝ) < c * q') → y < c := by
    rintro c ⟨h1, h2⟩
    by_contra hc
    push Not at hc
    have a1 : (p : ℝ) - y * q < 0 := by nlinarith
    have a2 : (p' : ℝ) - y * q' < 0 := by nlinarith
    have := mul_pos_of_neg_of_neg a1 a2
    linarith
  rw [Int.floor_eq_iff]
  have c1 : ∀ {a b : ℤ}, a ≤ b → (a : ℝ) ≤ b := fun h => by exact_mod_cast h
  have c2 : ∀ {a b : ℤ}, a < b → (a : ℝ) < b := fun h => by exact_mod_cast h
  have up : ∀ {p q : ℤ}, 0 < q → (0 ≤ i ∧ i * q ≤ p ∧ p < (i + 1) * q) ∨ (i ≤ 0 ∧ p ≤ i * q ∧ (i - 1) * q < p) →
      p < (i + 1) * q := by
    rintro p q hq (⟨-, -, h⟩ | ⟨-, h, -⟩)
    · exact h
    · nlinarith
  have b := tdiv_bounds hq h
  have b' := tdiv_bounds hq' h'
  refine ⟨?_, ?_⟩
  · by_cases hi : i ≤ 0
    · have : (i : ℝ) ≤ 0 := by exact_mod_cast hi
      linarith
    · refine hlow i ⟨?_, ?_⟩
      · rcases b with ⟨-, b, -⟩ | ⟨b, -⟩
        · exact_mod_cast b
        · omega
      · rcases b' with ⟨-, b, -⟩ | ⟨b, -⟩
        · exact_mod_cast b
        · omega
  · refine hup _ ⟨?_, ?_⟩
    · have := up hq b; exact_mod_cast this
    · have := up hq' b'; exact_mod_cast this

/-- the state of `decimals` after `n` digits: the image of the convergents under `v ↦ 10ⁿv - N` -/
def DigAt (g : ℕ → ℤ × ℤ) (x : ℝ) (n : ℕ) (pos : ℕ) (m : Block) : Prop :=
  ∃ N : ℤ, decTail x n = 10 ^ n * x - N ∧ Scal m ((⟨10 ^ n, -N, 0, 1⟩ : Block).lmul (rawN Block.identity g pos))

theorem DigAt.move {g : ℕ → ℤ × ℤ} {x : ℝ} {n pos : ℕ} {m m' : Block} (h : DigAt g x n pos m)
    (hs : Scal m' (m.raw (g pos).1 (g pos).2)) : DigAt g x n (pos + 1) m' := by
  obtain ⟨N, h1, h2⟩ := h
  refine ⟨N, h1, ?_⟩
  have := hs.trans (h2.raw (g pos).1 (g pos).2)
  rw [Block.lmul_raw] at this
  exact this

theorem DigAt.lin {g : ℕ → ℤ × ℤ} {x : ℝ} {n pos : ℕ} {m : Block} (h : DigAt g x n pos m) :
    LinAt g x (decTail x n) pos m := by
  obtain ⟨N, h1, h2⟩ := h
  refine ⟨_, h2, by simp [Block.den], ?_⟩
  rw [h1]
  simp only [Block.num, Block.den]
  push_cast
  ring

theorem DigAt.out {g : ℕ → ℤ × ℤ} {x : ℝ} (hg : Straddle g x) (hx : 0 ≤ x) {n pos : ℕ} {m : Block} (h : DigAt g x n pos m)
    {i r1 r2 : ℤ} (hc : m.checkInteger = some (i, r1, r2)) :
    i = ⌊decTail x n⌋ ∧ DigAt g x (n + 1) pos (m.afterMul r1 r2) := by
  obtain ⟨N, h1, l, l0, s1, s2, s3, s4⟩ := h
  obtain ⟨q1, q2, t1, t2, -, -, e1, e2⟩ := checkInteger_spec hc
  have hy : 0 ≤ decTail x n := by
    cases n with
    | zero => exact hx
    | succ n => rw [decTail]; have := Int.floor_le (decTail x n); linarith
  obtain _ | _ | pos := pos
  · exfalso; apply q1
    simp only [Block.lmul, rawN, Block.identity] at s3
    have : l * m.qm1 = 0 := by linarith
    exact (mul_eq_zero.mp this).resolve_left l0.ne'
  · exfalso; apply q2
    simp only [Block.lmul, rawN, Block.raw, Block.identity] at s4
    have : l * m.qm2 = 0 := by linarith
    exact (mul_eq_zero.mp this).resolve_left l0.ne'
  have g1 : l * m.pm1 = 10 ^ n * gP g (pos + 2) - N * gQ g (pos + 2) := by
    rw [← s1]; simp only [Block.lmul, gP, gQ]; ring
  have g2 : l * m.pm2 = 10 ^ n * gP g (pos + 1) - N * gQ g (pos + 1) := by
    rw [← s2]; simp only [Block.lmul, rawN_snd]; ring
  have g3 : l * m.qm1 = gQ g (pos + 2) := by rw [← s3]; simp only [Block.lmul, gQ]; ring
  have g4 : l * m.qm2 = gQ g (pos + 1) := by rw [← s4]; simp only [Block.lmul, rawN_snd]; ring
  have q1' : 0 < m.qm1 := (mul_pos_iff_of_pos_left l0).mp (by rw [g3]; exact hg.1 (pos + 1))
  have q2' : 0 < m.qm2 := (mul_pos_iff_of_pos_left l0).mp (by rw [g4]; exact hg.1 pos)
  have hi : ⌊decTail x n⌋ = i := by
    refine floor_between q1' q2' t1 t2 hy ?_
    have l0' : (0 : ℝ) < l := by exact_mod_cast l0
    have f1 : (l : ℝ) * (m.pm1 - decTail x n * m.qm1) = 10 ^ n * (gP g (pos + 2) - x * gQ g (pos + 2)) := by
      have a1 : (l : ℝ) * m.pm1 = 10 ^ n * gP g (pos + 2) - N * gQ g (pos + 2) := by exact_mod_cast g1
      have a2 : (l : ℝ) * m.qm1 = gQ g (pos + 2) := by exact_mod_cast g3
      rw [h1]; linear_combination a1 - (10 ^ n * x - N) * a2
    have f2 : (l : ℝ) * (m.pm2 - decTail x n * m.qm2) = 10 ^ n * (gP g (pos + 1) - x * gQ g (pos + 1)) := by
      have a1 : (l : ℝ) * m.pm2 = 10 ^ n * gP g (pos + 1) - N * gQ g (pos + 1) := by exact_mod_cast g2
      have a2 : (l : ℝ) * m.qm2 = gQ g (pos + 1) := by exact_mod_cast g4
      rw [h1]; linear_combination a1 - (10 ^ n * x - N) * a2
    have f3 : (l : ℝ) * l * (((m.pm1 : ℝ) - decTail x n * m.qm1) * (m.pm2 - decTail x n * m.qm2)) ≤ 0 := by
      have : (l : ℝ) * l * (((m.pm1 : ℝ) - decTail x n * m.qm1) * (m.pm2 - decTail x n * m.qm2))
          = 10 ^ n * 10 ^ n * ((gP g (pos + 1) - x * gQ g (pos + 1)) * (gP g (pos + 2) - x * gQ g (pos + 2))) := by
        linear_combination f1 * ((l : ℝ) * (m.pm2 - decTail x n * m.qm2)) + 10 ^ n * (gP g (pos + 2) - x * gQ g (pos + 2)) * f2
      rw [this]
      exact mul_nonpos_of_nonneg_of_nonpos (by positivity) (hg.2 pos)
    by_contra hcon
    push Not at hcon
    have := mul_pos (mul_pos l0' l0') hcon
    linarith
  refine ⟨hi.symm, 10 * (N + i), ?_, l, l0, ?_, ?_, ?_, ?_⟩
  · rw [decTail, hi, h1]; push_cast; ring
  · have : r1 = m.pm1 - i * m.qm1 := by linarith
    simp only [Block.lmul, Block.afterMul, this]
    simp only [Block.lmul] at s1 s3
    linear_combination 10 * s1 - 10 * i * s3
  · have : r2 = m.pm2 - i * m.qm2 := by linarith
    simp only [Block.lmul, Block.afterMul, this]
    simp only [Block.lmul] at s2 s4
    linear_combination 10 * s2 - 10 * i * s4
  · simp only [Block.lmul, Block.afterMul] at *; linarith
  · simp only [Block.lmul, Block.afterMul] at *; linarith

end NumIrr
