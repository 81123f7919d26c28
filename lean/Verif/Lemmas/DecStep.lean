/-
One call of `next` on the result of `decimals`.
-/
import Verif.Lemmas.HomoReg

namespace NumIrr

open Block

/-- the number after `n` digits have been taken off: `y₀ = x`, `yₙ₊₁ = 10·(yₙ - ⌊yₙ⌋)` -/
noncomputable def decTail (x : ℝ) : ℕ → ℝ
  | 0 => x
  | n + 1 => 10 * (decTail x n - ⌊decTail x n⌋)

theorem decTail_eq (x : ℝ) (n : ℕ) : decTail x (n + 1) = 10 ^ (n + 1) * x - 10 * ⌊10 ^ n * x⌋ := by
  induction n with
  | zero => simp only [decTail, pow_zero, one_mul, zero_add, pow_one]; ring
  | succ n ih =>
    rw [decTail, ih]
    have : ⌊10 ^ (n + 1) * x - 10 * (⌊10 ^ n * x⌋ : ℝ)⌋ = ⌊10 ^ (n + 1) * x⌋ - 10 * ⌊10 ^ n * x⌋ := by
      have := Int.floor_sub_intCast (10 ^ (n + 1) * x) (10 * ⌊10 ^ n * x⌋)
      push_cast at this
      exact this
    rw [this]
    push_cast
    ring

theorem decTail_bounds {x : ℝ} (h0 : 0 ≤ x) (h1 : x < 10) (n : ℕ) : 0 ≤ decTail x n ∧ decTail x n < 10 := by
  cases n with
  | zero => exact ⟨h0, h1⟩
  | succ n =>
    rw [decTail]
    have := Int.floor_le (decTail x n)
    have := Int.lt_floor_add_one (decTail x n)
    constructor <;> linarith

theorem decTail_floor {x : ℝ} (h0 : 0 ≤ x) (h1 : x < 10) (n : ℕ) : ⌊decTail x n⌋ = ⌊10 ^ n * x⌋ % 10 := by
  have hb := decTail_bounds h0 h1 n
  have b0 : 0 ≤ ⌊decTail x n⌋ := Int.floor_nonneg.mpr hb.1
  have b1 : ⌊decTail x n⌋ < 10 := by rw [Int.floor_lt]; exact_mod_cast hb.2
  cases n with
  | zero =>
    simp only [decTail, pow_zero, one_mul] at *
    omega
  | succ n =>
    have e : ⌊decTail x (n + 1)⌋ = ⌊10 ^ (n + 1) * x⌋ - 10 * ⌊10 ^ n * x⌋ := by
      rw [decTail_eq]
      have := Int.floor_sub_intCast (10 ^ (n + 1) * x) (10 * ⌊10 ^ n * x⌋)
      push_cast at this
      exact this
    omega

theorem decTail_irrational {x : ℝ} (hx : Irrational x) (n : ℕ) : Irrational (decTail x n) := by
  induction n with
  | zero => exact hx
  | succ n ih =>
    rw [decTail]
    have := (ih.sub_intCast ⌊decTail x n⌋).natCast_mul (m := 10) (by norm_num)
    push_cast at this
    exact this

/-- the block after giving a digit -/
def Block.afterMul (m : Block) (r1 r2 : ℤ) : Block := ⟨r1 * 10, r2 * 10, m.qm1, m.qm2⟩

/-- overflow is either impossible or a panic -/
def NoWrap (cfg : Cfg) (ty : IntTy) : Prop := cfg.debug = true ∨ ∀ n, ty.fits n = true

theorem reduceMulTy_some {cfg : Cfg} {ty : IntTy} (hw : NoWrap cfg ty) {m m' : Block} {i : ℤ}
    (h : GIter.reduceMulTy cfg ty m = .ok (some i, m')) :
    ∃ r1 r2, m.checkInteger = some (i, r1, r2) ∧ m' = m.afterMul r1 r2 := by
  unfold GIter.reduceMulTy at h
  split at h
  · rename_i i' r1 r2 he
    split at h
    · cases h
      exact ⟨r1, r2, he, rfl⟩
    · rename_i hf
      rcases hw with hw | hw
      · rw [if_pos hw] at h; cases h
      · simp [hw] at hf
  · cases h

theorem reduceMulTy_none {cfg : Cfg} {ty : IntTy} {m m' : Block} (h : GIter.reduceMulTy cfg ty m = .ok (none, m')) :
    m.checkInteger = none ∧ m' = m := by
  unfold GIter.reduceMulTy at h
  split at h
  · split at h
    · cases h
    · split at h <;> cases h
  · cases h
    rename_i he
    exact ⟨he, rfl⟩

theorem GIter.decNext_inv {cfg : Cfg} {ty : IntTy} (hw : NoWrap cfg ty) {I : GIter → Prop}
    (hmove : ∀ s a b p q m', I s → s.src s.pos = some (a, b) → s.block.checkedGmove ty.fits a b = (some (p, q), m') →
      I { s with block := m'.update p q, pos := s.pos + 1 }) :
    ∀ (fuel : ℕ) (s s' : GIter) (ch : ℕ), I s → GIter.decNext cfg ty fuel s = some (.ok (some ch, s')) →
      ∃ s0 i r1 r2, I s0 ∧ s0.block.checkInteger = some (i, r1, r2) ∧ GIter.digitChar cfg i = .ok ch ∧
        s' = { s0 with block := s0.block.afterMul r1 r2 } := by
  intro fuel
  induction fuel with
  | zero => intro s s' ch _ h; simp [GIter.decNext] at h
  | succ fuel ih =>
    intro s s' ch hI h
    rw [GIter.decNext] at h
    split at h
    · cases h
    · rename_i i m he
      split at h
      · cases h
      · rename_i ch' hd
        cases h
        obtain ⟨r1, r2, h1, rfl⟩ := reduceMulTy_some hw he
        exact ⟨s, i, r1, r2, hI, h1, hd, rfl⟩
    · rename_i m he
      obtain ⟨h1, rfl⟩ := reduceMulTy_none he
      split at h
      · cases h
      · rename_i a b hv
        split at h
        · cases h
        · rename_i p q m' hm
          exact ih _ _ _ (hmove s a b p q m' hI hv hm) h

/-- the block after `j` moves of `decimals` -/
def GIter.dblk (s : GIter) (g : ℕ → ℤ × ℤ) (fits : ℤ → Bool) : ℕ → Block
  | 0 => s.block
  | j + 1 =>
    match (GIter.dblk s g fits j).checkedGmove fits (g j).1 (g j).2 with
    | (some (p, q), m) => m.update p q
    | (none, m) => m

theorem checkedGmove_all {fits : ℤ → Bool} (hf : ∀ n, fits n = true) (m : Block) (a b : ℤ) :
    ∃ p q m', m.checkedGmove fits a b = (some (p, q), m') := by
  have : fits = fun _ => true := funext hf
  rw [this]
  exact checkedGmove_big m a b

theorem GIter.dblk_scal {s : GIter} {g : ℕ → ℤ × ℤ} {fits : ℤ → Bool} (hf : ∀ n, fits n = true) (j : ℕ) :
    Scal (s.dblk g fits (j + 1)) ((s.dblk g fits j).raw (g j).1 (g j).2) := by
  obtain ⟨p, q, m', h⟩ := checkedGmove_all hf (s.dblk g fits j) (g j).1 (g j).2
  rw [GIter.dblk, h]
  exact checkedGmove_scal h

theorem reduceMulTy_of_check {cfg : Cfg} {ty : IntTy} (hf : ∀ n, ty.fits n = true) {m : Block} {i r1 r2 : ℤ}
    (h : m.checkInteger = some (i, r1, r2)) : GIter.reduceMulTy cfg ty m = .ok (some i, m.afterMul r1 r2) := by
  unfold GIter.reduceMulTy; rw [h]; simp [hf, Block.afterMul]

theorem reduceMulTy_of_none {cfg : Cfg} {ty : IntTy} {m : Block} (h : m.checkInteger = none) :
    GIter.reduceMulTy cfg ty m = .ok (none, m) := by
  unfold GIter.reduceMulTy; rw [h]

/-- a call on an integer type without bounds gives a digit or a panic of the digit conversion -/
theorem GIter.decNext_returns {cfg : Cfg} {ty : IntTy} (hf : ∀ n, ty.fits n = true) {s : GIter} {g : ℕ → ℤ × ℤ}
    (hsrc : ∀ j, s.src (s.pos + j) = some (g j)) :
    ∀ j, (∃ r, (s.dblk g ty.fits j).checkInteger = some r) →
      ∃ fuel j' i r1 r2, (s.dblk g ty.fits j').checkInteger = some (i, r1, r2) ∧
        GIter.decNext cfg ty fuel s = some (match GIter.digitChar cfg i with
          | .error e => .error e
          | .ok ch => .ok (some ch, ⟨(s.dblk g ty.fits j').afterMul r1 r2, s.src, s.pos + j'⟩)) := by
  have zero : ∀ (s : GIter) (g : ℕ → ℤ × ℤ) (i r1 r2 : ℤ), s.block.checkInteger = some (i, r1, r2) →
      GIter.decNext cfg ty 1 s = some (match GIter.digitChar cfg i with
          | .error e => .error e
          | .ok ch => .ok (some ch, ⟨(s.dblk g ty.fits 0).afterMul r1 r2, s.src, s.pos + 0⟩)) := by
    intro s g i r1 r2 h
    rw [GIter.decNext, reduceMulTy_of_check hf h]
    simp only
    cases GIter.digitChar cfg i <;> rfl
  intro j
  induction j generalizing s g with
  | zero =>
    rintro ⟨⟨i, r1, r2⟩, h⟩
    exact ⟨1, 0, i, r1, r2, h, zero s g i r1 r2 h⟩
  | succ j ih =>
    rintro ⟨r, h⟩
    cases hc : s.block.checkInteger with
    | some r' =>
      obtain ⟨i, r1, r2⟩ := r'
      exact ⟨1, 0, i, r1, r2, hc, zero s g i r1 r2 hc⟩
    | none =>
      obtain ⟨p, q, m', hm⟩ := checkedGmove_all hf s.block (g 0).1 (g 0).2
      set s1 : GIter := { s with block := m'.update p q, pos := s.pos + 1 } with hs1
      have hb : ∀ j, s1.dblk (fun k => g (k + 1)) ty.fits j = s.dblk g ty.fits (j + 1) := by
        intro j
        induction j with
        | zero => simp only [GIter.dblk, hm]; rfl
        | succ j ih => rw [GIter.dblk, ih]; rfl
      obtain ⟨fuel, j', i, r1, r2, h1, h2⟩ := ih (s := s1) (g := fun k => g (k + 1))
        (fun k => by have := hsrc (k + 1); simp only [hs1]; rw [← this]; congr 1; omega) ⟨r, by rw [hb]; exact h⟩
      refine ⟨fuel + 1, j' + 1, i, r1, r2, by rw [← hb]; exact h1, ?_⟩
      rw [GIter.decNext, reduceMulTy_of_none hc]
      simp only
      rw [show s.src s.pos = some (g 0) from hsrc 0]
      simp only
      rw [hm]
      simp only
      rw [show (⟨m'.update p q, s.src, s.pos + 1⟩ : GIter) = s1 from rfl, h2]
      rw [hb]
      simp only [hs1]
      rw [show s.pos + 1 + j' = s.pos + (j' + 1) by omega]

/-- a non-negative block whose value at `w` is the number with `n` digits taken off -/
def DecAt (x : ℝ) (n : ℕ) (w : ℝ) (m : Block) : Prop :=
  Nonneg m ∧ 0 < m.den w ∧ m.num w = decTail x n * m.den w

theorem DecAt.move {x : ℝ} {n : ℕ} {w w' : ℝ} {m m' : Block} {a b : ℤ} (h : DecAt x n w m) (ha : 1 ≤ a) (hb : 0 ≤ b)
    (hw' : 0 < w') (hw : (a : ℝ) * w = b + 1 / w') (hs : Scal m' (m.raw a b)) : DecAt x n w' m' := by
  obtain ⟨h1, h2, h3⟩ := h
  refine ⟨hs.nonneg (raw_nonneg h1 (by omega) hb), ?_⟩
  obtain ⟨lam, l0, hl⟩ := hs.num
  obtain ⟨e1, e2⟩ := hl w'
  obtain ⟨f1, f2⟩ := raw_num m hw'.ne' hw
  rw [f1] at e1
  rw [f2] at e2
  have ha' : (0 : ℝ) < a := by exact_mod_cast (show (0 : ℤ) < a by omega)
  constructor
  · have : 0 < lam * m'.den w' := by rw [← e2]; positivity
    exact (mul_pos_iff_of_pos_left l0).mp this
  · have : lam * m'.num w' = lam * (decTail x n * m'.den w') := by
      rw [← e1, h3]; linear_combination decTail x n * e2
    exact mul_left_cancel₀ l0.ne' this

theorem DecAt.out {x : ℝ} {n : ℕ} {w : ℝ} {m : Block} {i r1 r2 : ℤ} (h : DecAt x n w m) (hw : 0 < w)
    (hc : m.checkInteger = some (i, r1, r2)) : i = ⌊decTail x n⌋ ∧ DecAt x (n + 1) w (m.afterMul r1 r2) := by
  obtain ⟨h1, h2, h3⟩ := h
  obtain ⟨q1, q2, i0, r10, r1q, r20, r2q⟩ := checkInteger_nonneg h1 hc
  obtain ⟨d0, hf, he⟩ := checkInteger_floor h1 hc hw
  have hi : i = ⌊decTail x n⌋ := by rw [← hf, h3, mul_div_assoc, div_self d0.ne', mul_one]
  refine ⟨hi, ⟨by simp only [Block.afterMul]; omega, by simp only [Block.afterMul]; omega, q1.le, q2.le⟩, d0, ?_⟩
  have e : (m.afterMul r1 r2).num w = 10 * (r1 * w + r2) := by
    simp only [Block.afterMul, Block.num]; push_cast; ring
  rw [e, decTail, ← hi]
  have : (m.afterMul r1 r2).den w = m.den w := rfl
  rw [this]
  rw [h3] at he
  linear_combination -10 * he

theorem digitChar_digit (cfg : Cfg) {i : ℤ} (h0 : 0 ≤ i) (h1 : i < 10) : GIter.digitChar cfg i = .ok (i + 48).toNat := by
  unfold GIter.digitChar
  rw [if_neg (by omega), if_pos (by omega)]

end NumIrr
