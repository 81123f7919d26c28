/-
C39, C40: the homographic function of a continued fraction.
-/
import Verif.Lemmas.HomoReg
import Mathlib.Analysis.Real.Sqrt
import Mathlib.Tactic.IntervalCases

namespace NumIrr

open Block

namespace Homo

/-- a call of `next` which yields `i`, after finitely many steps -/
def Call (s : Homo) (i : ℤ) (s' : Homo) : Prop := ∃ N, ∀ fuel, N ≤ fuel → Homo.next fuel s = some (some i, s')

/-- C39, first half: whatever the coefficients and `a, b, c, d`, the outputs followed by the block applied to the rest
of `x` are `(ax + b)/(cx + d)`, as a pair (numerator, denominator) up to a common factor.  `t k` is the rest of `x`
after `k` coefficients: `t k = v + 1/t (k+1)` where `v` is the coefficient number `k`. -/
theorem homo_value (src : ℕ → Option ℤ) (a b c d : ℤ) (t : ℕ → ℝ)
    (ht : ∀ k v, src k = some v → t (k + 1) ≠ 0 ∧ t k = v + 1 / t (k + 1)) {outs : List ℤ} {s : Homo}
    (h : Outs Call (Homo.new src a b c d) outs s) :
    s.src = src ∧ ∃ lam : ℝ, lam ≠ 0 ∧
      nestPair outs (s.block.pm1 * t s.pos + s.block.pm2, s.block.qm1 * t s.pos + s.block.qm2)
        = (lam * (a * t 0 + b), lam * (c * t 0 + d)) := by
  generalize hs0 : Homo.new src a b c d = s0 at h
  induction h with
  | nil =>
    subst hs0
    exact ⟨rfl, 1, one_ne_zero, by simp [nestPair, Homo.new, Block.new]⟩
  | @snoc s2 s3 l i _ hc ih =>
    obtain ⟨fuel, hc⟩ := hc
    replace hc := hc fuel le_rfl
    obtain ⟨s0, r1, r2, ⟨h1, lam, l0, h2⟩, h3, rfl⟩ := Homo.next_inv
      (I := fun s => s.src = src ∧ ∃ lam : ℝ, lam ≠ 0 ∧
        nestPair l (s.block.pm1 * t s.pos + s.block.pm2, s.block.qm1 * t s.pos + s.block.qm2)
          = (lam * (a * t 0 + b), lam * (c * t 0 + d)))
      (by
        rintro s v ⟨e1, lam, l0, e2⟩ hv
        rw [e1] at hv
        obtain ⟨t0, ht1⟩ := ht _ _ hv
        refine ⟨e1, lam * t (s.pos + 1), mul_ne_zero l0 t0, ?_⟩
        obtain ⟨f1, f2⟩ := raw_num s.block (a := 1) (b := v) (w := t s.pos) t0 (by rw [ht1]; push_cast; ring)
        simp only
        rw [rmove_eq_raw]
        have g1 : (((s.block.raw 1 v).pm1 : ℝ) * t (s.pos + 1) + (s.block.raw 1 v).pm2)
            = t (s.pos + 1) * (s.block.pm1 * t s.pos + s.block.pm2) := by
          have := f1; simp only [Block.num] at this; rw [this]; push_cast; ring
        have g2 : (((s.block.raw 1 v).qm1 : ℝ) * t (s.pos + 1) + (s.block.raw 1 v).qm2)
            = t (s.pos + 1) * (s.block.qm1 * t s.pos + s.block.qm2) := by
          have := f2; simp only [Block.den] at this; rw [this]; push_cast; ring
        rw [g1, g2, nestPair_smul, e2]
        congr 1 <;> ring)
      fuel s2 s3 i ih hc
    refine ⟨h1, lam, l0, ?_⟩
    obtain ⟨-, -, -, -, -, -, e1, e2⟩ := checkInteger_spec h3
    rw [nestPair_snoc, ← h2]
    simp only [Block.after]
    rw [show (i : ℝ) * (s0.block.qm1 * t s0.pos + s0.block.qm2) + (r1 * t s0.pos + r2)
      = s0.block.pm1 * t s0.pos + s0.block.pm2 by rw [e1, e2]; push_cast; ring]

/-- C39, first half, for irrational `x` and `ad ≠ bc`: the number equals the emitted prefix followed by the block
applied to the rest of `x`. -/
theorem homo_value_irrational (src : ℕ → Option ℤ) (a b c d : ℤ) (hdet : a * d ≠ b * c) (t : ℕ → ℝ)
    (ht : ∀ k v, src k = some v → t (k + 1) ≠ 0 ∧ t k = v + 1 / t (k + 1)) (hx : Irrational (t 0)) {outs : List ℤ}
    {s : Homo} (h : Outs Call (Homo.new src a b c d) outs s) :
    s.block.qm1 * t s.pos + s.block.qm2 ≠ 0 ∧
    (a * t 0 + b) / (c * t 0 + d) = nestVal outs
      ((s.block.pm1 * t s.pos + s.block.pm2) / (s.block.qm1 * t s.pos + s.block.qm2)) := by
  obtain ⟨-, lam, l0, h1⟩ := homo_value src a b c d t ht h
  have hd : (c : ℝ) * t 0 + d ≠ 0 := den_ne hx (by rintro ⟨rfl, rfl⟩; simp at hdet)
  have hz := mobius_irrational hx (a := a) (b := b) (c := c) (d := d) (by omega)
  have e : lam * ((a : ℝ) * t 0 + b) / (lam * (c * t 0 + d)) = (a * t 0 + b) / (c * t 0 + d) :=
    mul_div_mul_left _ _ l0
  have := nestPair_nestVal outs _ _ (by rw [h1]; exact mul_ne_zero l0 hd) (by rw [h1]; simp only; rw [e]; exact hz)
  rw [h1] at this
  simp only at this
  rw [e] at this
  exact this

/-- C39, second half: for `x > 0` with non-negative coefficients and positive rests, and non-negative `a, b, c, d`, every
output is the true integer part, that is the outputs are the coefficients of the regular expansion of
`(ax + b)/(cx + d)`. -/
theorem homo_regular (src : ℕ → Option ℤ) (a b c d : ℤ) (ha : 0 ≤ a) (hb : 0 ≤ b) (hc : 0 ≤ c) (hd : 0 ≤ d)
    (t : ℕ → ℝ) (h0 : 0 < t 0)
    (ht : ∀ k v, src k = some v → 0 ≤ v ∧ 0 < t (k + 1) ∧ t k = v + 1 / t (k + 1)) {outs : List ℤ} {s : Homo}
    (h : Outs Call (Homo.new src a b c d) outs s) (n : ℕ) (hn : n < outs.length) :
    outs[n] = ⌊tails ((a * t 0 + b) / (c * t 0 + d)) n⌋ := by
  set z := (a * t 0 + b) / (c * t 0 + d) with hz
  suffices H : (s.src = src ∧ 0 < t s.pos ∧ RegAt z outs.length (t s.pos) s.block) ∧
      ∀ n (hn : n < outs.length), outs[n] = ⌊tails z n⌋ from H.2 n hn
  clear hn n
  generalize hs0 : Homo.new src a b c d = s0 at h
  induction h with
  | nil =>
    subst hs0
    refine ⟨⟨rfl, h0, ⟨ha, hb, hc, hd⟩, ?_⟩, fun n hn => by simp at hn⟩
    simp only [Homo.new, Block.new, Block.den, Block.num, List.length_nil]
    by_cases h : c = 0 ∧ d = 0
    · left; exact h
    · right
      have hc' : (0 : ℝ) ≤ c := by exact_mod_cast hc
      have hd' : (0 : ℝ) ≤ d := by exact_mod_cast hd
      have hpos : 0 < (c : ℝ) * t 0 + d := by
        by_cases h1 : c = 0
        · have : (0 : ℝ) < d := by
            have : 0 < d := lt_of_le_of_ne hd (fun e => h ⟨h1, e.symm⟩)
            exact_mod_cast this
          nlinarith [mul_nonneg hc' h0.le]
        · have : (0 : ℝ) < c := by
            have : 0 < c := lt_of_le_of_ne hc (Ne.symm h1)
            exact_mod_cast this
          nlinarith [mul_pos this h0]
      refine ⟨hpos, ?_⟩
      rw [tails, hz, div_mul_cancel₀ _ hpos.ne']
  | @snoc s2 s3 l i _ hcall ih =>
    obtain ⟨hinv, hl⟩ := ih
    obtain ⟨fuel, hcall⟩ := hcall
    replace hcall := hcall fuel le_rfl
    obtain ⟨s0, r1, r2, ⟨h1, h2, h3⟩, h4, rfl⟩ := Homo.next_inv
      (I := fun s => s.src = src ∧ 0 < t s.pos ∧ RegAt z l.length (t s.pos) s.block)
      (by
        rintro s v ⟨e1, e2, e3⟩ hv
        rw [e1] at hv
        obtain ⟨v0, t0, ht1⟩ := ht _ _ hv
        refine ⟨e1, t0, ?_⟩
        refine e3.move (a := 1) (b := v) le_rfl v0 t0 (by rw [ht1]; push_cast; ring) ?_
        simp only
        rw [rmove_eq_raw]
        exact Scal.refl _)
      fuel s2 s3 i hinv hcall
    obtain ⟨hi, hr⟩ := h3.out h2 h4
    refine ⟨⟨h1, h2, by rw [List.length_append]; exact hr⟩, fun n hn => ?_⟩
    rw [List.length_append, List.length_singleton] at hn
    rcases Nat.lt_succ_iff_lt_or_eq.mp hn with hn | rfl
    · rw [List.getElem_append_left hn]; exact hl n hn
    · rw [List.getElem_append_right le_rfl]; simpa using hi

/-- For irrational `x > 0` given by its regular expansion and non-negative `a, b, c, d` with `ad ≠ bc`, `next` can be
called any number of times: every call returns a coefficient, after finitely many steps (C40), and the coefficients are
those of the regular expansion of `(ax + b)/(cx + d)` (C39). -/
theorem homo_productive (x : ℝ) (hx : Irrational x) (h0 : 0 < x) (a b c d : ℤ) (ha : 0 ≤ a) (hb : 0 ≤ b) (hc : 0 ≤ c)
    (hd : 0 ≤ d) (hdet : a * d ≠ b * c) (n : ℕ) :
    ∃ s, Outs Call (Homo.new (fun k => some ⌊tails x k⌋) a b c d)
      ((List.range n).map fun k => ⌊tails ((a * x + b) / (c * x + d)) k⌋) s := by
  set src : ℕ → Option ℤ := fun k => some ⌊tails x k⌋ with hsrc
  set z := (a * x + b) / (c * x + d) with hz
  have hzi : Irrational z := mobius_irrational hx (by omega)
  have ht : ∀ k v, src k = some v → 0 ≤ v ∧ 0 < tails x (k + 1) ∧ tails x k = v + 1 / tails x (k + 1) := by
    intro k v hv
    simp only [hsrc, Option.some.injEq] at hv
    subst hv
    exact ⟨Int.floor_nonneg.mpr (tails_pos hx h0 k).le, tails_pos hx h0 _, tails_eq x k⟩
  have hpos : 0 < (c : ℝ) * x + d := by
    have hc' : (0 : ℝ) ≤ c := by exact_mod_cast hc
    have hd' : (0 : ℝ) ≤ d := by exact_mod_cast hd
    refine lt_of_le_of_ne (by nlinarith [mul_nonneg hc' h0.le]) (Ne.symm (den_ne hx ?_))
    rintro ⟨rfl, rfl⟩; simp at hdet
  -- the state after `n` outputs
  suffices H : ∃ s, Outs Call (Homo.new src a b c d) ((List.range n).map fun k => ⌊tails z k⌋) s ∧ s.src = src ∧
      Nonneg s.block ∧ 0 < s.block.den (tails x s.pos) ∧
      s.block.num (tails x s.pos) = tails z n * s.block.den (tails x s.pos) from ⟨_, H.choose_spec.1⟩
  induction n with
  | zero =>
    refine ⟨_, Outs.nil _, rfl, ⟨ha, hb, hc, hd⟩, hpos, ?_⟩
    show (a : ℝ) * x + b = z * (c * x + d)
    rw [hz, div_mul_cancel₀ _ hpos.ne']
  | succ n ih =>
    obtain ⟨s, hs, h1, h2, h3, h4⟩ := ih
    -- it returns
    obtain ⟨j, hj⟩ := eventually_check (g := regG (regc (tails x s.pos))) (w := tails x s.pos)
      (regG_posT (regc_pos (tails_irrational hx _)) (Int.floor_nonneg.mpr (tails_pos hx h0 _).le))
      (regc_cto (tails_irrational hx _)) (ms := s.blk (regc (tails x s.pos)))
      (fun j => by rw [Homo.blk, rmove_eq_raw]; exact Scal.refl _) h2 h3
      (by
        show Irrational (s.block.num (tails x s.pos) / s.block.den (tails x s.pos))
        rw [h4, mul_div_assoc, div_self h3.ne', mul_one]
        exact tails_irrational hzi n)
    obtain ⟨fuel, i, s', hcall⟩ := Homo.next_returns (s := s) (c := regc (tails x s.pos))
      (fun j => by rw [h1, regc_tails]; rfl) j hj
    obtain ⟨s0, r1, r2, ⟨e1, e2⟩, h5, rfl⟩ := Homo.next_inv
      (I := fun s => s.src = src ∧ RegAt z n (tails x s.pos) s.block)
      (by
        rintro s v ⟨e1, e2⟩ hv
        rw [e1] at hv
        obtain ⟨v0, t0, ht1⟩ := ht _ _ hv
        refine ⟨e1, e2.move (a := 1) (b := v) le_rfl v0 t0 (by rw [ht1]; push_cast; ring) ?_⟩
        simp only
        rw [rmove_eq_raw]
        exact Scal.refl _)
      fuel s s' i ⟨h1, h2, Or.inr ⟨h3, h4⟩⟩ hcall
    obtain ⟨hi, hN, hr⟩ := e2.out (tails_pos hx h0 _) h5
    obtain ⟨d0, -, hnum⟩ := checkInteger_floor e2.1 h5 (tails_pos hx h0 s0.pos)
    have hnz : ¬ (r1 = 0 ∧ r2 = 0) := by
      rintro ⟨rfl, rfl⟩
      -- then the quotient would be an integer
      have hnum' : s0.block.num (tails x s0.pos) = tails z n * s0.block.den (tails x s0.pos) := by
        rcases e2.2 with ⟨h, -⟩ | ⟨-, h⟩
        · exact absurd h (checkInteger_spec h5).1
        · exact h
      rw [hnum'] at hnum
      have : tails z n = i := by
        have : tails z n * s0.block.den (tails x s0.pos) = i * s0.block.den (tails x s0.pos) := by
          rw [hnum]; simp
        exact mul_right_cancel₀ d0.ne' this
      exact tails_irrational hzi n ⟨i, by rw [Rat.cast_intCast]; exact this.symm⟩
    refine ⟨{ s0 with block := s0.block.after r1 r2 }, ?_, e1, hN, ?_⟩
    · rw [List.range_succ, List.map_append, List.map_singleton, ← hi]
      exact Outs.snoc hs ⟨fuel, fun f hf => Homo.next_mono hcall hf⟩
    · rcases hr with h | h
      · exact absurd h hnz
      · exact h

/-- `√2` and `(2x + 1)/(x + 3) = 0.867…` meet the hypotheses -/
example : ∃ s, Outs Call (Homo.new (fun k => some ⌊tails (√2) k⌋) 2 1 1 3)
    ((List.range 4).map fun k => ⌊tails (((2 : ℤ) * √2 + (1 : ℤ)) / ((1 : ℤ) * √2 + (3 : ℤ))) k⌋) s :=
  homo_productive (√2) irrational_sqrt_two (by positivity) 2 1 1 3 (by norm_num) (by norm_num) (by norm_num)
    (by norm_num) (by norm_num) 4

/-- the first outputs, computed -/
example :
    (let s0 := Homo.new (fun k => some (if k = 0 then 1 else 2)) 2 1 1 3
     (Homo.next 9 s0).bind fun r0 => (Homo.next 9 r0.2).bind fun r1 => (Homo.next 9 r1.2).bind fun r2 =>
      some [r0.1, r1.1, r2.1]) = some [some 0, some 1, some 6] := by decide +kernel

/-- Without the sign condition the outputs need not be integer parts: `(11x - 16)/(2x - 3)` at `x = √2`, where the pole
`3/2` lies between the two enclosing values `11/2` and `16/3`. The first output is `5`, the integer part is `2`. -/
theorem homo_pole (src : ℕ → Option ℤ) :
    (∃ s, Call (Homo.new src 11 (-16) 2 (-3)) 5 s) ∧ ⌊(11 * √2 + (-16)) / (2 * √2 + (-3))⌋ = 2 := by
  refine ⟨⟨_, 1, fun f hf => Homo.next_mono rfl hf⟩, ?_⟩
  have h1 : √2 * √2 = 2 := Real.mul_self_sqrt (by norm_num)
  have h2 : (1.41 : ℝ) < √2 := by rw [Real.lt_sqrt (by norm_num)]; norm_num
  have h3 : √2 < (1.415 : ℝ) := by rw [Real.sqrt_lt' (by norm_num)]; norm_num
  have h4 : 2 * √2 + (-3) < 0 := by linarith
  rw [Int.floor_eq_iff]
  constructor
  · rw [le_div_iff_of_neg h4]; push_cast; nlinarith
  · rw [div_lt_iff_of_neg h4]; push_cast; nlinarith

end Homo
end NumIrr
