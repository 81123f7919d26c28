/-
C43: `simplify` of a generalized continued fraction.
-/
import Verif.Lemmas.HomoReg

namespace NumIrr

open Block

namespace GIter

/-- a call of `next` on the result of `simplify` which yields `i`, after finitely many steps -/
def SimpCall (s : GIter) (i : ℤ) (s' : GIter) : Prop :=
  ∃ N, ∀ fuel, N ≤ fuel → GIter.simpNext fuel s = some (some i, s')

/-- C43, any coefficients (`aₖ ≠ 0`): the outputs followed by the block applied to the rest are the number, as a pair
(numerator, denominator) up to a common factor.  `w k` is the rest `bₖ + aₖ₊₁/(bₖ₊₁ + …)` divided by `aₖ`, so `w 0` is
the number. -/
theorem simplify_value (src : ℕ → Option (ℤ × ℤ)) (w : ℕ → ℝ)
    (hw : ∀ k a b, src k = some (a, b) → a ≠ 0 ∧ w (k + 1) ≠ 0 ∧ a * w k = b + 1 / w (k + 1)) {outs : List ℤ} {s : GIter}
    (h : Outs SimpCall (GIter.new src) outs s) :
    s.src = src ∧ ∃ lam : ℝ, lam ≠ 0 ∧
      nestPair outs (s.block.pm1 * w s.pos + s.block.pm2, s.block.qm1 * w s.pos + s.block.qm2) = (lam * w 0, lam) := by
  generalize hs0 : GIter.new src = s0 at h
  induction h with
  | nil =>
    subst hs0
    exact ⟨rfl, 1, one_ne_zero, by simp [nestPair, GIter.new, Block.identity]⟩
  | @snoc s2 s3 l i _ hc ih =>
    obtain ⟨fuel, hc⟩ := hc
    replace hc := hc fuel le_rfl
    obtain ⟨s0, r1, r2, ⟨h1, lam, l0, h2⟩, h3, rfl⟩ := GIter.simpNext_inv
      (I := fun s => s.src = src ∧ ∃ lam : ℝ, lam ≠ 0 ∧
        nestPair l (s.block.pm1 * w s.pos + s.block.pm2, s.block.qm1 * w s.pos + s.block.qm2) = (lam * w 0, lam))
      (by
        rintro s a b ⟨e1, lam, l0, e2⟩ hv
        rw [e1] at hv
        obtain ⟨a0, t0, ht1⟩ := hw _ _ _ hv
        have a0' : (a : ℝ) ≠ 0 := by exact_mod_cast a0
        obtain ⟨f1, f2⟩ := raw_num s.block (a := a) (b := b) (w := w s.pos) t0 ht1
        obtain ⟨k, k0, hk⟩ := (gmove_scal s.block a b).num
        obtain ⟨k1, k2⟩ := hk (w (s.pos + 1))
        refine ⟨e1, k⁻¹ * (a * w (s.pos + 1)) * lam, mul_ne_zero (mul_ne_zero (inv_ne_zero k0.ne') (mul_ne_zero a0' t0)) l0, ?_⟩
        have g1 : (((s.block.gmove a b).pm1 : ℝ) * w (s.pos + 1) + (s.block.gmove a b).pm2)
            = (k⁻¹ * (a * w (s.pos + 1))) * (s.block.pm1 * w s.pos + s.block.pm2) := by
          have : (s.block.gmove a b).num (w (s.pos + 1)) = k⁻¹ * (a * w (s.pos + 1) * s.block.num (w s.pos)) := by
            rw [← f1, k1]; field_simp
          simp only [Block.num] at this; rw [this]; ring
        have g2 : (((s.block.gmove a b).qm1 : ℝ) * w (s.pos + 1) + (s.block.gmove a b).qm2)
            = (k⁻¹ * (a * w (s.pos + 1))) * (s.block.qm1 * w s.pos + s.block.qm2) := by
          have : (s.block.gmove a b).den (w (s.pos + 1)) = k⁻¹ * (a * w (s.pos + 1) * s.block.den (w s.pos)) := by
            rw [← f2, k2]; field_simp
          simp only [Block.den] at this; rw [this]; ring
        simp only
        rw [g1, g2, nestPair_smul, e2]
        congr 1
        ring)
      fuel s2 s3 i ih hc
    refine ⟨h1, lam, l0, ?_⟩
    obtain ⟨-, -, -, -, -, -, e1, e2⟩ := checkInteger_spec h3
    rw [nestPair_snoc, ← h2]
    simp only [Block.after]
    rw [show (i : ℝ) * (s0.block.qm1 * w s0.pos + s0.block.qm2) + (r1 * w s0.pos + r2)
      = s0.block.pm1 * w s0.pos + s0.block.pm2 by rw [e1, e2]; push_cast; ring]

/-- the fraction `1 + 3/(2 + 5/(4 + …))` cut off after the second pair has such rests for every last rest, here `8` -/
example : ∃ w : ℕ → ℝ, ∀ k (a b : ℤ), (fun k => if k = 0 then some (1, 1) else if k = 1 then some (3, 2) else none : ℕ → Option (ℤ × ℤ)) k = some (a, b) →
    a ≠ 0 ∧ w (k + 1) ≠ 0 ∧ a * w k = b + 1 / w (k + 1) := by
  refine ⟨fun k => if k = 0 then 41 / 17 else if k = 1 then 17 / 24 else 8, fun k a b h => ?_⟩
  rcases k with _ | _ | k
  · simp at h; obtain ⟨rfl, rfl⟩ := h; norm_num
  · simp at h; obtain ⟨rfl, rfl⟩ := h; norm_num
  · simp at h

/-- the invariant of the regular outputs -/
theorem simp_reg_move {g : ℕ → ℤ × ℤ} (hp : PosG g) {x : ℝ} (hx : GVal g x) {n : ℕ} (s : GIter) (a b : ℤ)
    (h : s.src = (fun k => some (g k)) ∧ RegAt x n (gw g x s.pos) s.block) (hv : s.src s.pos = some (a, b)) :
    ({ s with block := s.block.gmove a b, pos := s.pos + 1 } : GIter).src = (fun k => some (g k)) ∧
      RegAt x n (gw g x (s.pos + 1)) (s.block.gmove a b) := by
  obtain ⟨e1, e2⟩ := h
  rw [e1] at hv
  simp only [Option.some.injEq] at hv
  have hch := (hx.cto hp.1).chain hp.posT
  have ha : (g s.pos).1 = a := by rw [hv]
  have hb : (g s.pos).2 = b := by rw [hv]
  refine ⟨e1, e2.move ?_ ?_ (hch (s.pos + 1)).1 ?_ (gmove_scal _ _ _)⟩
  · rw [← ha]; exact hp.posT.1 _
  · rw [← hb]; have := (hp.posT.drop s.pos).2.1; simpa [dropG] using this
  · rw [← ha, ← hb]; exact (hch s.pos).2

/-- C43, positive coefficients: whatever is emitted by `simplify` are the coefficients of the regular expansion of the
number. -/
theorem simplify_regular (g : ℕ → ℤ × ℤ) (hp : PosG g) (x : ℝ) (hx : GVal g x) {outs : List ℤ} {s : GIter}
    (h : Outs SimpCall (GIter.new fun k => some (g k)) outs s) (n : ℕ) (hn : n < outs.length) :
    outs[n] = ⌊tails x n⌋ := by
  have hch := (hx.cto hp.1).chain hp.posT
  suffices H : (s.src = (fun k => some (g k)) ∧ RegAt x outs.length (gw g x s.pos) s.block) ∧
      ∀ n (hn : n < outs.length), outs[n] = ⌊tails x n⌋ from H.2 n hn
  clear hn n
  generalize hs0 : GIter.new (fun k => some (g k)) = s0 at h
  induction h with
  | nil =>
    subst hs0
    refine ⟨⟨rfl, identity_nonneg, Or.inr ?_⟩, fun n hn => by simp at hn⟩
    simp [GIter.new, Block.identity, Block.num, Block.den, tails, gw]
  | @snoc s2 s3 l i _ hcall ih =>
    obtain ⟨hinv, hl⟩ := ih
    obtain ⟨fuel, hcall⟩ := hcall
    replace hcall := hcall fuel le_rfl
    obtain ⟨s0, r1, r2, ⟨h1, h3⟩, h4, rfl⟩ := GIter.simpNext_inv
      (I := fun s => s.src = (fun k => some (g k)) ∧ RegAt x l.length (gw g x s.pos) s.block)
      (fun s a b hs hv => simp_reg_move hp hx s a b hs hv) fuel s2 s3 i hinv hcall
    obtain ⟨hi, hr⟩ := h3.out (hch s0.pos).1 h4
    refine ⟨⟨h1, by rw [List.length_append]; exact hr⟩, fun n hn => ?_⟩
    rw [List.length_append, List.length_singleton] at hn
    rcases Nat.lt_succ_iff_lt_or_eq.mp hn with hn | rfl
    · rw [List.getElem_append_left hn]; exact hl n hn
    · rw [List.getElem_append_right le_rfl]; simpa using hi

/-- C43, productivity: a positive fraction with irrational value is expanded for ever. -/
theorem simplify_productive (g : ℕ → ℤ × ℤ) (hp : PosG g) (x : ℝ) (hx : GVal g x) (hirr : Irrational x) (n : ℕ) :
    ∃ s, Outs SimpCall (GIter.new fun k => some (g k)) ((List.range n).map fun k => ⌊tails x k⌋) s := by
  have hcto := hx.cto hp.1
  have hch := hcto.chain hp.posT
  suffices H : ∃ s, Outs SimpCall (GIter.new fun k => some (g k)) ((List.range n).map fun k => ⌊tails x k⌋) s ∧
      s.src = (fun k => some (g k)) ∧ Nonneg s.block ∧ 0 < s.block.den (gw g x s.pos) ∧
      s.block.num (gw g x s.pos) = tails x n * s.block.den (gw g x s.pos) from ⟨_, H.choose_spec.1⟩
  induction n with
  | zero =>
    refine ⟨_, Outs.nil _, rfl, identity_nonneg, ?_⟩
    simp [GIter.new, Block.identity, Block.num, Block.den, tails, gw]
  | succ n ih =>
    obtain ⟨s, hs, h1, h2, h3, h4⟩ := ih
    obtain ⟨j, hj⟩ := eventually_check (g := dropG g s.pos) (w := gw g x s.pos) (hp.posT.drop _)
      (hcto.drop hp.posT s.pos) (ms := s.blk (dropG g s.pos)) (fun j => gmove_scal _ _ _) h2 h3
      (by
        show Irrational (s.block.num (gw g x s.pos) / s.block.den (gw g x s.pos))
        rw [h4, mul_div_assoc, div_self h3.ne', mul_one]
        exact tails_irrational hirr n)
    obtain ⟨fuel, i, s', hcall⟩ := GIter.simpNext_returns (s := s) (g := dropG g s.pos) (fun j => by rw [h1]; rfl) j hj
    obtain ⟨s0, r1, r2, ⟨e1, e2⟩, h5, rfl⟩ := GIter.simpNext_inv
      (I := fun s => s.src = (fun k => some (g k)) ∧ RegAt x n (gw g x s.pos) s.block)
      (fun s a b hs hv => simp_reg_move hp hx s a b hs hv) fuel s s' i ⟨h1, h2, Or.inr ⟨h3, h4⟩⟩ hcall
    obtain ⟨hi, hN, hr⟩ := e2.out (hch s0.pos).1 h5
    obtain ⟨d0, -, hnum⟩ := checkInteger_floor e2.1 h5 (hch s0.pos).1
    have hnz : ¬ (r1 = 0 ∧ r2 = 0) := by
      rintro ⟨rfl, rfl⟩
      have hnum' : s0.block.num (gw g x s0.pos) = tails x n * s0.block.den (gw g x s0.pos) := by
        rcases e2.2 with ⟨h, -⟩ | ⟨-, h⟩
        · exact absurd h (checkInteger_spec h5).1
        · exact h
      rw [hnum'] at hnum
      have : tails x n = i := by
        have : tails x n * s0.block.den (gw g x s0.pos) = i * s0.block.den (gw g x s0.pos) := by
          rw [hnum]; simp
        exact mul_right_cancel₀ d0.ne' this
      exact tails_irrational hirr n ⟨i, by rw [Rat.cast_intCast]; exact this.symm⟩
    refine ⟨{ s0 with block := s0.block.after r1 r2 }, ?_, e1, hN, ?_⟩
    · rw [List.range_succ, List.map_append, List.map_singleton, ← hi]
      exact Outs.snoc hs ⟨fuel, fun f hf => GIter.simpNext_mono hcall hf⟩
    · rcases hr with h | h
      · exact absurd h hnz
      · exact h

/-- the golden ratio as a positive fraction which is not regular, `1 + 2/(2 + 4/(2 + 4/(2 + …)))`.  (`Props/Symbols` uses
the theorems for π.) -/
example : PosG (fun k => if k = 0 then (1, 1) else if k = 1 then (2, 2) else (4, 2)) := by
  refine ⟨rfl, by simp, fun k => ?_⟩
  rcases k with _ | k <;> simp

/-- the outputs on the fraction `1 + 2/(2 + 4/(2 + 4/(2 + …)))`, which is the golden ratio -/
example :
    (let s0 := GIter.new (fun k => some (if k = 0 then (1, 1) else if k = 1 then (2, 2) else (4, 2)))
     (GIter.simpNext 9 s0).bind fun r0 => (GIter.simpNext 9 r0.2).bind fun r1 => (GIter.simpNext 9 r1.2).bind fun r2 =>
      some [r0.1, r1.1, r2.1]) = some [some 1, some 1, some 1] := by decide +kernel

end GIter
end NumIrr
