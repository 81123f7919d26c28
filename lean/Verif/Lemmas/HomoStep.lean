/-
One call of `next` on the results of `homo` and `simplify`: invariants, integer parts, termination.
-/
import Verif.Model.Infinite
import Verif.Model.General
import Verif.Lemmas.GConv
import Verif.Spec.Tails

namespace NumIrr

open Block

/-! ### complete quotients -/

theorem tails_succ (x : ℝ) (n : ℕ) : tails x (n + 1) = 1 / (tails x n - ⌊tails x n⌋) := by
  induction n generalizing x with
  | zero => rfl
  | succ n ih => rw [tails, ih]; rfl

theorem tails_irrational {x : ℝ} (hx : Irrational x) (n : ℕ) : Irrational (tails x n) := by
  induction n with
  | zero => exact hx
  | succ n ih =>
    rw [tails_succ, one_div]
    exact (ih.sub_intCast _).inv

theorem tails_gt_one {x : ℝ} (hx : Irrational x) (n : ℕ) : 1 < tails x (n + 1) := by
  rw [tails_succ]
  have h := tails_irrational hx n
  have h1 : (⌊tails x n⌋ : ℝ) < tails x n :=
    lt_of_le_of_ne (Int.floor_le _) (fun e => h ⟨⌊tails x n⌋, by rw [Rat.cast_intCast]; exact e⟩)
  have h2 := Int.lt_floor_add_one (tails x n)
  rw [lt_div_iff₀ (by linarith)]
  linarith

theorem tails_eq (x : ℝ) (n : ℕ) : tails x n = ⌊tails x n⌋ + 1 / tails x (n + 1) := by
  rw [tails_succ, one_div_one_div]; ring

/-! ### nested pairs -/

theorem nestPair_smul (l : List ℤ) (k u v : ℝ) :
    nestPair l (k * u, k * v) = (k * (nestPair l (u, v)).1, k * (nestPair l (u, v)).2) := by
  induction l with
  | nil => rfl
  | cons i l ih => simp only [nestPair, ih]; congr 1; ring

theorem nestPair_snoc (l : List ℤ) (i : ℤ) (u v : ℝ) : nestPair (l ++ [i]) (u, v) = nestPair l (i * u + v, u) := by
  induction l with
  | nil => rfl
  | cons j l ih => simp only [List.cons_append, nestPair, ih]

/-! ### one call -/

/-- the block after giving the integer part -/
def Block.after (m : Block) (r1 r2 : ℤ) : Block := ⟨m.qm1, m.qm2, r1, r2⟩

theorem reduceRecip_some {m m' : Block} {i : ℤ} (h : m.reduceRecip = (some i, m')) :
    ∃ r1 r2, m.checkInteger = some (i, r1, r2) ∧ m' = m.after r1 r2 := by
  unfold Block.reduceRecip at h
  split at h
  · rename_i i' r1 r2 he
    simp only [Prod.mk.injEq, Option.some.injEq] at h
    obtain ⟨rfl, rfl⟩ := h
    exact ⟨r1, r2, he, rfl⟩
  · simp at h

theorem reduceRecip_none {m m' : Block} (h : m.reduceRecip = (none, m')) : m.checkInteger = none ∧ m' = m := by
  unfold Block.reduceRecip at h
  split at h
  · simp at h
  · rename_i he
    simp only [Prod.mk.injEq, true_and] at h
    exact ⟨he, h.symm⟩

theorem reduceRecip_of_check {m : Block} {i r1 r2 : ℤ} (h : m.checkInteger = some (i, r1, r2)) :
    m.reduceRecip = (some i, m.after r1 r2) := by
  unfold Block.reduceRecip; rw [h]; rfl

theorem reduceRecip_of_none {m : Block} (h : m.checkInteger = none) : m.reduceRecip = (none, m) := by
  unfold Block.reduceRecip; rw [h]

theorem Homo.next_inv {I : Homo → Prop}
    (hmove : ∀ s v, I s → s.src s.pos = some v → I { s with block := s.block.rmove v, pos := s.pos + 1 }) :
    ∀ (fuel : ℕ) (s s' : Homo) (i : ℤ), I s → Homo.next fuel s = some (some i, s') →
      ∃ s0 r1 r2, I s0 ∧ s0.block.checkInteger = some (i, r1, r2) ∧ s' = { s0 with block := s0.block.after r1 r2 } := by
  intro fuel
  induction fuel with
  | zero => intro s s' i _ h; simp [Homo.next] at h
  | succ fuel ih =>
    intro s s' i hI h
    rw [Homo.next] at h
    split at h
    · rename_i i' m he
      simp only [Option.some.injEq, Prod.mk.injEq] at h
      obtain ⟨rfl, rfl⟩ := h
      obtain ⟨r1, r2, h1, rfl⟩ := reduceRecip_some he
      exact ⟨s, r1, r2, hI, h1, rfl⟩
    · rename_i m he
      obtain ⟨h1, rfl⟩ := reduceRecip_none he
      split at h
      · rename_i v hv
        exact ih _ _ _ (hmove s v hI hv) h
      · simp at h

theorem GIter.simpNext_inv {I : GIter → Prop}
    (hmove : ∀ s a b, I s → s.src s.pos = some (a, b) → I { s with block := s.block.gmove a b, pos := s.pos + 1 }) :
    ∀ (fuel : ℕ) (s s' : GIter) (i : ℤ), I s → GIter.simpNext fuel s = some (some i, s') →
      ∃ s0 r1 r2, I s0 ∧ s0.block.checkInteger = some (i, r1, r2) ∧ s' = { s0 with block := s0.block.after r1 r2 } := by
  intro fuel
  induction fuel with
  | zero => intro s s' i _ h; simp [GIter.simpNext] at h
  | succ fuel ih =>
    intro s s' i hI h
    rw [GIter.simpNext] at h
    split at h
    · rename_i i' m he
      simp only [Option.some.injEq, Prod.mk.injEq] at h
      obtain ⟨rfl, rfl⟩ := h
      obtain ⟨r1, r2, h1, rfl⟩ := reduceRecip_some he
      exact ⟨s, r1, r2, hI, h1, rfl⟩
    · rename_i m he
      obtain ⟨h1, rfl⟩ := reduceRecip_none he
      split at h
      · rename_i a b hv
        exact ih _ _ _ (hmove s a b hI hv) h
      · simp at h

theorem Homo.next_mono {fuel : ℕ} : ∀ {s : Homo} {r : Option ℤ × Homo}, Homo.next fuel s = some r →
    ∀ {fuel' : ℕ}, fuel ≤ fuel' → Homo.next fuel' s = some r := by
  induction fuel with
  | zero => intro s r h; simp [Homo.next] at h
  | succ fuel ih =>
    intro s r h fuel' hf
    obtain ⟨f, rfl⟩ : ∃ f, fuel' = f + 1 := ⟨fuel' - 1, by omega⟩
    rw [Homo.next] at h ⊢
    split at h
    · exact h
    · split at h
      · exact ih h (by omega)
      · exact h

theorem GIter.simpNext_mono {fuel : ℕ} : ∀ {s : GIter} {r : Option ℤ × GIter}, GIter.simpNext fuel s = some r →
    ∀ {fuel' : ℕ}, fuel ≤ fuel' → GIter.simpNext fuel' s = some r := by
  induction fuel with
  | zero => intro s r h; simp [GIter.simpNext] at h
  | succ fuel ih =>
    intro s r h fuel' hf
    obtain ⟨f, rfl⟩ : ∃ f, fuel' = f + 1 := ⟨fuel' - 1, by omega⟩
    rw [GIter.simpNext] at h ⊢
    split at h
    · exact h
    · split at h
      · exact ih h (by omega)
      · exact h

theorem GIter.decNext_mono {cfg : Cfg} {ty : IntTy} {fuel : ℕ} : ∀ {s : GIter} {r : Res (Option ℕ × GIter)},
    GIter.decNext cfg ty fuel s = some r → ∀ {fuel' : ℕ}, fuel ≤ fuel' → GIter.decNext cfg ty fuel' s = some r := by
  induction fuel with
  | zero => intro s r h; simp [GIter.decNext] at h
  | succ fuel ih =>
    intro s r h fuel' hf
    obtain ⟨f, rfl⟩ : ∃ f, fuel' = f + 1 := ⟨fuel' - 1, by omega⟩
    rw [GIter.decNext] at h ⊢
    split at h
    · exact h
    · split at h <;> exact h
    · split at h
      · exact h
      · split at h
        · exact h
        · exact ih h (by omega)

/-- the block after `j` moves of `homo` -/
def Homo.blk (s : Homo) (c : ℕ → ℤ) : ℕ → Block
  | 0 => s.block
  | j + 1 => (Homo.blk s c j).rmove (c j)

theorem Homo.next_returns {s : Homo} {c : ℕ → ℤ} (hsrc : ∀ j, s.src (s.pos + j) = some (c j)) :
    ∀ j, (∃ r, (s.blk c j).checkInteger = some r) → ∃ fuel i s', Homo.next fuel s = some (some i, s') := by
  intro j
  induction j generalizing s c with
  | zero =>
    rintro ⟨⟨i, r1, r2⟩, h⟩
    refine ⟨1, i, { s with block := s.block.after r1 r2 }, ?_⟩
    rw [Homo.next, reduceRecip_of_check (show s.block.checkInteger = _ from h)]
  | succ j ih =>
    rintro ⟨r, h⟩
    cases hc : s.block.checkInteger with
    | some r' =>
      obtain ⟨i, r1, r2⟩ := r'
      refine ⟨1, i, { s with block := s.block.after r1 r2 }, ?_⟩
      rw [Homo.next, reduceRecip_of_check hc]
    | none =>
      set s1 : Homo := { s with block := s.block.rmove (c 0), pos := s.pos + 1 } with hs1
      have hb : ∀ j, s1.blk (fun k => c (k + 1)) j = s.blk c (j + 1) := by
        intro j
        induction j with
        | zero => rfl
        | succ j ih => rw [Homo.blk, ih]; rfl
      obtain ⟨fuel, i, s', he⟩ := ih (s := s1) (c := fun k => c (k + 1))
        (fun k => by have := hsrc (k + 1); simp only [hs1]; rw [← this]; congr 1; omega) ⟨r, by rw [hb]; exact h⟩
      refine ⟨fuel + 1, i, s', ?_⟩
      rw [Homo.next, reduceRecip_of_none hc]
      simp only
      rw [show s.src s.pos = some (c 0) from hsrc 0]
      exact he

/-- the block after `j` moves of `simplify` -/
def GIter.blk (s : GIter) (g : ℕ → ℤ × ℤ) : ℕ → Block
  | 0 => s.block
  | j + 1 => (GIter.blk s g j).gmove (g j).1 (g j).2

theorem GIter.simpNext_returns {s : GIter} {g : ℕ → ℤ × ℤ} (hsrc : ∀ j, s.src (s.pos + j) = some (g j)) :
    ∀ j, (∃ r, (s.blk g j).checkInteger = some r) → ∃ fuel i s', GIter.simpNext fuel s = some (some i, s') := by
  intro j
  induction j generalizing s g with
  | zero =>
    rintro ⟨⟨i, r1, r2⟩, h⟩
    refine ⟨1, i, { s with block := s.block.after r1 r2 }, ?_⟩
    rw [GIter.simpNext, reduceRecip_of_check (show s.block.checkInteger = _ from h)]
  | succ j ih =>
    rintro ⟨r, h⟩
    cases hc : s.block.checkInteger with
    | some r' =>
      obtain ⟨i, r1, r2⟩ := r'
      refine ⟨1, i, { s with block := s.block.after r1 r2 }, ?_⟩
      rw [GIter.simpNext, reduceRecip_of_check hc]
    | none =>
      set s1 : GIter := { s with block := s.block.gmove (g 0).1 (g 0).2, pos := s.pos + 1 } with hs1
      have hb : ∀ j, s1.blk (fun k => g (k + 1)) j = s.blk g (j + 1) := by
        intro j
        induction j with
        | zero => rfl
        | succ j ih => rw [GIter.blk, ih]; rfl
      obtain ⟨fuel, i, s', he⟩ := ih (s := s1) (g := fun k => g (k + 1))
        (fun k => by have := hsrc (k + 1); simp only [hs1]; rw [← this]; congr 1; omega) ⟨r, by rw [hb]; exact h⟩
      refine ⟨fuel + 1, i, s', ?_⟩
      rw [GIter.simpNext, reduceRecip_of_none hc]
      simp only
      rw [show s.src s.pos = some (g 0) from hsrc 0]
      exact he

/-! ### regular outputs -/

/-- a non-negative block whose value at `w` is the `n`-th complete quotient of `z`, or which will never give an
integer again -/
def RegAt (z : ℝ) (n : ℕ) (w : ℝ) (m : Block) : Prop :=
  Nonneg m ∧ ((m.qm1 = 0 ∧ m.qm2 = 0) ∨ (0 < m.den w ∧ m.num w = tails z n * m.den w))

theorem RegAt.move {z : ℝ} {n : ℕ} {w w' : ℝ} {m m' : Block} {a b : ℤ} (h : RegAt z n w m) (ha : 1 ≤ a) (hb : 0 ≤ b)
    (hw' : 0 < w') (hw : (a : ℝ) * w = b + 1 / w') (hs : Scal m' (m.raw a b)) : RegAt z n w' m' := by
  obtain ⟨h1, h2⟩ := h
  refine ⟨hs.nonneg (raw_nonneg h1 (by omega) hb), ?_⟩
  rcases h2 with ⟨h2, h3⟩ | ⟨h2, h3⟩
  · left
    obtain ⟨l, l0, -, -, hc, hd⟩ := hs
    simp only [Block.raw, h2, h3] at hc hd
    constructor
    · have : l * m'.qm1 = 0 := by rw [← hc]; ring
      exact (mul_eq_zero.mp this).resolve_left l0.ne'
    · have : l * m'.qm2 = 0 := by rw [← hd]
      exact (mul_eq_zero.mp this).resolve_left l0.ne'
  · right
    obtain ⟨lam, l0, hl⟩ := hs.num
    obtain ⟨e1, e2⟩ := hl w'
    obtain ⟨f1, f2⟩ := raw_num m hw'.ne' hw
    rw [f1] at e1
    rw [f2] at e2
    have ha' : (0 : ℝ) < a := by exact_mod_cast (show (0 : ℤ) < a by omega)
    constructor
    · have : 0 < lam * m'.den w' := by rw [← e2]; positivity
      exact (mul_pos_iff_of_pos_left l0).mp this
    · have : lam * m'.num w' = lam * (tails z n * m'.den w') := by
        rw [← e1, h3]; linear_combination tails z n * e2
      exact mul_left_cancel₀ l0.ne' this

theorem RegAt.out {z : ℝ} {n : ℕ} {w : ℝ} {m : Block} {i r1 r2 : ℤ} (h : RegAt z n w m) (hw : 0 < w)
    (hc : m.checkInteger = some (i, r1, r2)) : i = ⌊tails z n⌋ ∧ RegAt z (n + 1) w (m.after r1 r2) := by
  obtain ⟨h1, h2⟩ := h
  obtain ⟨q1, q2, i0, r10, r1q, r20, r2q⟩ := checkInteger_nonneg h1 hc
  obtain ⟨d0, hf, he⟩ := checkInteger_floor h1 hc hw
  have h3 : m.num w = tails z n * m.den w := by
    rcases h2 with ⟨h2, -⟩ | ⟨-, h2⟩
    · omega
    · exact h2
  have hi : i = ⌊tails z n⌋ := by rw [← hf, h3, mul_div_assoc, div_self d0.ne', mul_one]
  refine ⟨hi, ⟨q1.le, q2.le, r10, r20⟩, ?_⟩
  by_cases hr : r1 = 0 ∧ r2 = 0
  · left; exact hr
  · right
    have a1 : (0 : ℝ) ≤ r1 := by exact_mod_cast r10
    have a2 : (0 : ℝ) ≤ r2 := by exact_mod_cast r20
    have hd : 0 < (m.after r1 r2).den w := by
      simp only [Block.after, Block.den]
      by_cases h : r1 = 0
      · have : (0 : ℝ) < r2 := by
          have : 0 < r2 := lt_of_le_of_ne r20 (fun e => hr ⟨h, e.symm⟩)
          exact_mod_cast this
        nlinarith [mul_nonneg a1 hw.le]
      · have : (0 : ℝ) < r1 := by
          have : 0 < r1 := lt_of_le_of_ne r10 (Ne.symm h)
          exact_mod_cast this
        nlinarith [mul_pos this hw]
    refine ⟨hd, ?_⟩
    have e1 : (m.after r1 r2).num w = m.den w := rfl
    have e2 : (m.after r1 r2).den w = (tails z n - ⌊tails z n⌋) * m.den w := by
      have : (m.after r1 r2).den w = r1 * w + r2 := rfl
      rw [this, ← hi]
      rw [h3] at he
      linarith
    have e3 : tails z n - ⌊tails z n⌋ ≠ 0 := by
      intro h; rw [e2, h, zero_mul] at hd; exact lt_irrefl _ hd
    rw [e1, e2, tails_succ]
    field_simp

end NumIrr
